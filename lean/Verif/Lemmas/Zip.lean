import Verif.Spec.Zip
import Verif.Lemmas.Buffer
/-! Helper lemmas about zips. -/

namespace Aegir

open Spec

variable {F A : Type}

/-- Does the impl pass its operands in order? All do, except scalar-with-array of rank ≥ 2
(`arrays/zip_ops.rs` L158-162). -/
def ZipImpl.swaps {a b c : BTy} : ZipImpl a b c → Bool
  | .sa ds => decide (2 ≤ ds.length)
  | _ => false

/-- The function an impl really applies. -/
def ZipImpl.eff {a b c : BTy} (z : ZipImpl a b c) (f : F → F → A) : F → F → A :=
  if z.swaps then fun u v => f v u else f

theorem ZipImpl.eff_of_not_swaps {a b c : BTy} (z : ZipImpl a b c) (h : z.swaps = false)
    (f : F → F → A) : z.eff f = f := by simp [eff, h]

theorem ZipImpl.eff_comm {a b c : BTy} (z : ZipImpl a b c) (f : F → F → A)
    (h : ∀ u v, f u v = f v u) : z.eff f = f := by
  unfold eff; split
  · funext u v; exact h v u
  · rfl

theorem zipMapFieldL_eq (ds : Dims) (x : F) (y : NArr F ds) (f : F → F → A) :
    NArr.zipMapFieldL ds x y f = NArr.map ds y (fun v => (ZipImpl.sa ds).eff f x v) := by
  by_cases h : 2 ≤ ds.length
  · rw [NArr.zipMapFieldL_rank2 h]
    simp [ZipImpl.eff, ZipImpl.swaps, h]
  · rw [NArr.zipMapFieldL_rank1 (by omega)]
    simp [ZipImpl.eff, ZipImpl.swaps, h]

theorem bIdx_nil (ix : Idx) : bIdx [] ix = [] := rfl
theorem bIdx_inBounds {ds : Dims} {ix : Idx} (h : InBounds ds ix) : bIdx ds ix = ix := by
  unfold bIdx; split
  · rename_i h'; subst h'; exact (Buf.inBounds_nil.1 h).symm
  · rfl

theorem vec_zip_get (x y : List F) (f : F → F → A) (i : Nat) (hx : i < x.length)
    (hy : i < y.length) :
    ((x.zip y).map (fun p => f p.1 p.2))[i]? = some (f x[i] y[i]) := by
  simp [hx, hy]

theorem ZipImpl.broadcast_vv (n m : Nat) :
    ZipImpl.broadcast .vv n m =
      if [n] = [m] then .ok (show Shp .vec from n) else .error ⟨[n], [m]⟩ := rfl

namespace Buf

theorem zipMap_vv (x y : List F) (f : F → F → A) :
    zipMap (.vv) (show Buf F .vec from x) (show Buf F .vec from y) f =
      if [x.length] ≠ [y.length] then .error ⟨[x.length], [y.length]⟩
      else .ok (show List A from (x.zip y).map (fun p => f p.1 p.2)) := rfl

/-- Full description of a successful `zip_map`. -/
theorem zipMap_isZip {a b c : BTy} (z : ZipImpl a b c) (x : Buf F a) (y : Buf F b)
    (f : F → F → A) (r : Buf A c) (h : zipMap z x y f = .ok r) : IsZip x y (z.eff f) r := by
  cases z with
  | ss =>
    cases h
    refine ⟨.same [], fun ix hix => ?_⟩
    have : ix = [] := inBounds_nil.1 hix
    subst this
    exact ⟨x, y, rfl, rfl, rfl⟩
  | tt =>
    cases h
    refine ⟨.same [2], fun ix hix => ?_⟩
    rcases inBounds_two.1 hix with rfl | rfl
    · exact ⟨x.1, y.1, rfl, rfl, rfl⟩
    · exact ⟨x.2, y.2, rfl, rfl, rfl⟩
  | vv =>
    have key : ∀ (x y : List F), zipMap (.vv) (show Buf F .vec from x) (show Buf F .vec from y) f
        = .ok r → IsZip (a := .vec) (b := .vec) x y f r := by
      intro x y h
      rw [zipMap_vv] at h
      split at h
      · cases h
      · rename_i hne
        have hlen : x.length = y.length := by simpa using hne
        cases h
        have hd : Buf.dims .vec (show Buf A .vec from (x.zip y).map (fun p => f p.1 p.2))
            = [x.length] := by
          show [((x.zip y).map (fun p => f p.1 p.2)).length] = _
          simp [hlen]
        refine ⟨?_, fun ix hix => ?_⟩
        · rw [hd]
          show BCast [x.length] [y.length] [x.length]
          rw [← hlen]; exact .same _
        · rw [hd] at hix
          obtain ⟨i, hi, rfl⟩ := inBounds_one.1 hix
          refine ⟨x[i], y[i], ?_, ?_, ?_⟩
          · exact List.getElem?_eq_getElem hi
          · exact List.getElem?_eq_getElem (by omega)
          · exact vec_zip_get x y f i hi (by omega)
    exact key x y h
  | vs =>
    have key : ∀ (x : List F), IsZip (a := .vec) (b := .scalar) x y f
        (show Buf A .vec from x.map (fun xi => f xi y)) := by
      intro x
      have hd : Buf.dims .vec (show Buf A .vec from x.map (fun xi => f xi y)) = [x.length] := by
        show [(x.map (fun xi => f xi y)).length] = _
        simp
      refine ⟨?_, fun ix hix => ?_⟩
      · rw [hd]; exact .right _
      · rw [hd] at hix
        obtain ⟨i, hi, rfl⟩ := inBounds_one.1 hix
        refine ⟨x[i], y, List.getElem?_eq_getElem hi, rfl, ?_⟩
        show (x.map (fun xi => f xi y))[i]? = _
        simp [hi]
    cases h
    exact key x
  | sv =>
    have key : ∀ (y : List F), IsZip (a := .scalar) (b := .vec) x y f
        (show Buf A .vec from y.map (fun yi => f x yi)) := by
      intro y
      have hd : Buf.dims .vec (show Buf A .vec from y.map (fun yi => f x yi)) = [y.length] := by
        show [(y.map (fun yi => f x yi)).length] = _
        simp
      refine ⟨?_, fun ix hix => ?_⟩
      · rw [hd]; exact .left _
      · rw [hd] at hix
        obtain ⟨i, hi, rfl⟩ := inBounds_one.1 hix
        refine ⟨x, y[i], rfl, List.getElem?_eq_getElem hi, ?_⟩
        show (y.map (fun yi => f x yi))[i]? = _
        simp [hi]
    cases h
    exact key y
  | aa ds =>
    cases h
    refine ⟨.same ds, fun ix hix => ?_⟩
    obtain ⟨u, v, hu, hv, hr⟩ := NArr.getU_zipMapSelf x y f ix hix
    have hb : bIdx ds ix = ix := bIdx_inBounds hix
    refine ⟨u, v, ?_, ?_, hr⟩
    · show NArr.getU ds x (bIdx ds ix) = _
      rw [hb]; exact hu
    · show NArr.getU ds y (bIdx ds ix) = _
      rw [hb]; exact hv
  | as ds =>
    cases h
    refine ⟨.right ds, fun ix hix => ?_⟩
    have hb : bIdx ds ix = ix := bIdx_inBounds hix
    obtain ⟨u, hu⟩ := getU_some (.array ds) x ix hix
    refine ⟨u, y, ?_, rfl, ?_⟩
    · show NArr.getU ds x (bIdx ds ix) = _
      rw [hb]; exact hu
    · show NArr.getU ds (NArr.zipMapFieldR ds x y f) ix = some (f u y)
      rw [NArr.zipMapFieldR_eq_map, NArr.getU_map]
      have hu' : NArr.getU ds x ix = some u := hu
      rw [hu']; rfl
  | sa ds =>
    cases h
    refine ⟨.left ds, fun ix hix => ?_⟩
    have hb : bIdx ds ix = ix := bIdx_inBounds hix
    obtain ⟨v, hv⟩ := getU_some (.array ds) y ix hix
    refine ⟨x, v, rfl, ?_, ?_⟩
    · show NArr.getU ds y (bIdx ds ix) = _
      rw [hb]; exact hv
    · show NArr.getU ds (NArr.zipMapFieldL ds x y f) ix = _
      rw [zipMapFieldL_eq, NArr.getU_map]
      have hv' : NArr.getU ds y ix = some v := hv
      rw [hv']; rfl

/-- `zip_map` of `Vec`s of different lengths is the only failure. -/
theorem zipMap_vv_error {x y : List F} (f : F → F → A) (h : x.length ≠ y.length) :
    zipMap .vv (show Buf F .vec from x) (show Buf F .vec from y) f
      = .error ⟨[x.length], [y.length]⟩ := by
  rw [zipMap_vv, if_pos (by simpa using h)]

theorem zipMap_ok_iff {a b c : BTy} (z : ZipImpl a b c) (x : Buf F a) (y : Buf F b)
    (f : F → F → A) :
    (∃ r, zipMap z x y f = .ok r) ↔ ∃ s, z.broadcast (shape a x) (shape b y) = .ok s := by
  cases z with
  | vv =>
    have key : ∀ (x y : List F), (∃ r, zipMap .vv (show Buf F .vec from x)
        (show Buf F .vec from y) f = .ok r) ↔
        ∃ s, ZipImpl.broadcast .vv x.length y.length
          = .ok s := by
      intro x y
      rw [zipMap_vv]
      rw [ZipImpl.broadcast_vv]
      by_cases h : [x.length] = [y.length]
      · simp [h]
      · simp [h]
    exact key x y
  | _ => exact iff_of_true ⟨_, rfl⟩ ⟨_, rfl⟩

theorem zipMap_error {a b c : BTy} (z : ZipImpl a b c) (x : Buf F a) (y : Buf F b)
    (f : F → F → A) (e : IncShapes) (h : zipMap z x y f = .error e) :
    e = ⟨dims a x, dims b y⟩ ∧ (∀ ds, ¬ BCast (dims a x) (dims b y) ds) := by
  cases z with
  | vv =>
    have key : ∀ (x y : List F), zipMap .vv (show Buf F .vec from x) (show Buf F .vec from y) f
        = .error e → e = ⟨[x.length], [y.length]⟩ ∧ ∀ ds, ¬ BCast [x.length] [y.length] ds := by
      intro x y h
      rw [zipMap_vv] at h
      split at h
      · cases h
        refine ⟨rfl, fun ds hb => ?_⟩
        rename_i hne
        generalize hl : [x.length] = l at *
        generalize hr : [y.length] = r at *
        cases hb with
        | same => exact hne rfl
        | left => cases hl
        | right => cases hr
      · cases h
    exact key x y h
  | _ => cases h

theorem broadcast_eq {a b c : BTy} (z : ZipImpl a b c) (x : Buf F a) (y : Buf F b)
    (f : F → F → A) :
    z.broadcast (shape a x) (shape b y) = (zipMap z x y f).map (shape c) := by
  cases z with
  | vv =>
    have key : ∀ (x y : List F),
        ZipImpl.broadcast .vv x.length y.length =
        (zipMap .vv (show Buf F .vec from x) (show Buf F .vec from y) f).map (shape .vec) := by
      intro x y
      rw [zipMap_vv]
      rw [ZipImpl.broadcast_vv]
      by_cases h : [x.length] = [y.length]
      · have h' : x.length = y.length := by simpa using h
        rw [if_pos h, if_neg (by simpa using h')]
        refine congrArg Except.ok ?_
        show x.length = ((x.zip y).map (fun p => f p.1 p.2)).length
        simp [h']
      · rw [if_neg h, if_pos h]; rfl
    exact key x y
  | vs =>
    have : ∀ x : List F, x.length = (x.map (fun xi => f xi y)).length := by simp
    exact congrArg Except.ok (this x)
  | sv =>
    have : ∀ y : List F, y.length = (y.map (fun yi => f x yi)).length := by simp
    exact congrArg Except.ok (this y)
  | _ => rfl

theorem zipMut_eq {a b : BTy} (z : ZipMutImpl a b) (x : Buf F a) (y : Buf F b) (f : F → F → F) :
    zipMut z x y f = (match z with
      | .aa ds => zipMap (.aa ds) x y f
      | .as ds => zipMap (.as ds) x y f) := by
  cases z with
  | aa ds => exact congrArg Except.ok (NArr.zipMutSelf_eq x y f)
  | as ds => exact congrArg Except.ok (NArr.zipMutFieldR_eq x y f)

theorem zipMapId_eq {a b c : BTy} (z : ZipImpl a b c) (x : Buf F a) (y : Buf F b)
    (f : F → F → F) : zipMapId z x y f = zipMap z x y f := by
  cases z with
  | aa ds => exact zipMut_eq (.aa ds) x y f
  | as ds => exact zipMut_eq (.as ds) x y f
  | _ => rfl

/-- The broadcast left operand is the zip by "left". -/
theorem zipShape_isBroadcast {a b c : BTy} (z : ZipImpl a b c) (x : Buf F a) (s : Shp b)
    (r : Buf F c) (h : zipShape z x s = .ok r) : IsBroadcast x (Shp.dims b s) r := by
  cases z with
  | ss =>
    cases h
    refine ⟨.same [], fun ix hix => ?_⟩
    have : ix = [] := inBounds_nil.1 hix
    subst this
    exact ⟨x, rfl, rfl⟩
  | tt =>
    cases h
    refine ⟨.same [2], fun ix hix => ?_⟩
    obtain ⟨u, hu⟩ := getU_some .tuple x ix hix
    refine ⟨u, ?_, hu⟩
    rw [bIdx_inBounds hix]; exact hu
  | vv =>
    have key : ∀ (x : List F) (m : Nat), (if [x.length] ≠ [m] then .error ⟨[x.length], [m]⟩
        else .ok (show List F from x) : Except IncShapes (List F)) = .ok r →
        IsBroadcast (a := .vec) x [m] r := by
      intro x m h
      split at h
      · cases h
      · rename_i hne
        have hne : x.length = m := by simpa using hne
        cases h
        refine ⟨?_, fun ix hix => ?_⟩
        · show BCast [x.length] [m] [x.length]
          rw [hne]; exact .same _
        · obtain ⟨u, hu⟩ := getU_some .vec x ix hix
          refine ⟨u, ?_, hu⟩
          rw [bIdx_inBounds hix]; exact hu
    exact key x s h
  | vs =>
    cases h
    refine ⟨.right _, fun ix hix => ?_⟩
    obtain ⟨u, hu⟩ := getU_some .vec x ix hix
    refine ⟨u, ?_, hu⟩
    rw [bIdx_inBounds hix]; exact hu
  | sv =>
    cases h
    refine ⟨?_, fun ix hix => ?_⟩
    · rw [dims_full]; exact .left _
    · rw [dims_full] at hix
      exact ⟨x, rfl, getU_full .vec s x ix hix⟩
  | aa ds =>
    cases h
    refine ⟨.same ds, fun ix hix => ?_⟩
    obtain ⟨u, hu⟩ := getU_some (.array ds) x ix hix
    refine ⟨u, ?_, hu⟩
    rw [bIdx_inBounds hix]; exact hu
  | as ds =>
    cases h
    refine ⟨.right ds, fun ix hix => ?_⟩
    obtain ⟨u, hu⟩ := getU_some (.array ds) x ix hix
    refine ⟨u, ?_, hu⟩
    rw [bIdx_inBounds hix]; exact hu
  | sa ds =>
    cases h
    refine ⟨?_, fun ix hix => ?_⟩
    · rw [dims_full]; exact .left ds
    · rw [dims_full] at hix
      exact ⟨x, rfl, getU_full (.array ds) s x ix hix⟩

/-- A pointwise combination is determined by its operands. -/
theorem isZip_unique {a b c : BTy} (x : Buf F a) (y : Buf F b) (f : F → F → A)
    (r r' : Buf A c) (h : IsZip x y f r) (h' : IsZip x y f r')
    (hs : shape c r = shape c r') : r = r' := by
  refine ext c r r' hs (fun ix hix => ?_)
  have hix' : InBounds (dims c r') ix := by rw [dims, ← hs]; exact hix
  obtain ⟨u, v, hu, hv, hr⟩ := h.2 ix hix
  obtain ⟨u', v', hu', hv', hr'⟩ := h'.2 ix hix'
  rw [hu] at hu'; rw [hv] at hv'
  cases hu'; cases hv'
  rw [hr, hr']

/-- `zip_shape` is the zip by "left operand". -/
theorem zipShape_eq {a b c : BTy} (z : ZipImpl a b c) (x : Buf F a) (y : Buf F b) :
    zipShape z x (shape b y) = zipMap z x y (z.eff (fun u _ => u)) := by
  have hshape : ∀ r, zipShape z x (shape b y) = .ok r →
      ∀ r', zipMap z x y (z.eff (fun u _ => u)) = .ok r' → shape c r = shape c r' := by
    intro r hr r' hr'
    have h1 := broadcast_eq z x y (z.eff (fun u _ => u))
    rw [hr'] at h1
    cases z with
    | vv =>
      have key : ∀ (x y r r' : List F), (if [x.length] ≠ [y.length] then
          .error ⟨[x.length], [y.length]⟩
          else .ok (show List F from x) : Except IncShapes (List F)) = .ok r →
          (if [x.length] = [y.length] then .ok (show Shp .vec from x.length) else
            .error ⟨[x.length], [y.length]⟩ : Except IncShapes (Shp .vec)) = .ok r'.length →
          r.length = r'.length := by
        intro x y r r' h1 h2
        split at h1
        · cases h1
        · split at h2
          · cases h1; exact Except.ok.inj h2
          · cases h2
      exact key x y r r' hr h1
    | vs => cases hr; exact Except.ok.inj h1
    | sv => cases hr; rw [shape_full]; exact Except.ok.inj h1
    | _ => rfl
  have hbc : ∀ r, zipShape z x (shape b y) = .ok r →
      ∀ r', zipMap z x y (z.eff (fun u _ => u)) = .ok r' → r = r' := by
    intro r hr r' hr'
    refine ext c r r' (hshape r hr r' hr') (fun ix hix => ?_)
    have hix' : InBounds (dims c r') ix := by rw [dims, ← hshape r hr r' hr']; exact hix
    obtain ⟨u, hu, hr1⟩ := (zipShape_isBroadcast z x _ r hr).2 ix hix
    obtain ⟨u', v', hu', _, hr2⟩ := (zipMap_isZip z x y _ r' hr').2 ix hix'
    rw [hu] at hu'; cases hu'
    rw [hr1, hr2]
    unfold ZipImpl.eff
    split <;> rfl
  cases z with
  | vv =>
    have key : ∀ (x y : List F), (if [x.length] ≠ [y.length] then
          .error ⟨[x.length], [y.length]⟩
          else .ok (show List F from x) : Except IncShapes (List F)) =
          if [x.length] ≠ [y.length] then .error ⟨[x.length], [y.length]⟩
            else .ok (show List F from (x.zip y).map (fun p => p.1)) := by
      intro x y
      split
      · rfl
      · rename_i h
        have h : x.length = y.length := by simpa using h
        refine congrArg Except.ok ?_
        show x = (x.zip y).map Prod.fst
        rw [List.map_fst_zip (by omega)]
    exact key x y
  | ss => rfl
  | tt => rfl
  | vs => exact congrArg Except.ok (hbc _ rfl _ rfl)
  | sv => exact congrArg Except.ok (hbc _ rfl _ rfl)
  | aa ds => exact congrArg Except.ok (hbc _ rfl _ rfl)
  | as ds => exact congrArg Except.ok (hbc _ rfl _ rfl)
  | sa ds => exact congrArg Except.ok (hbc _ rfl _ rfl)

theorem foldlM_pairs {α β G : Type} (ixs : List α) (g : α → Option F) (h : α → Option G)
    (xs : List F) (ys : List G) (hx : ixs.map g = xs.map some) (hy : ixs.map h = ys.map some)
    (f : β → F × G → β) (init : β) :
    ixs.foldlM (fun acc ix => (g ix).bind (fun x => (h ix).map (fun y => f acc (x, y)))) init
      = some ((xs.zip ys).foldl f init) := by
  induction ixs generalizing xs ys init with
  | nil =>
    cases xs with
    | nil => simp
    | cons => simp at hx
  | cons a ixs ih =>
    cases xs with
    | nil => simp at hx
    | cons x xs =>
      cases ys with
      | nil => simp at hy
      | cons y ys =>
        simp only [List.map_cons, List.cons.injEq] at hx hy
        simp only [List.foldlM_cons, hx.1, hy.1, Option.bind_some, Option.map_some, List.zip_cons_cons,
          List.foldl_cons]
        exact ih xs ys hx.2 hy.2 (f init (x, y))

theorem vec_range_entries (l : List F) (n : Nat) (hn : n = l.length) :
    (List.range n).map (fun i => l[i]?) = l.map some := by
  subst hn
  apply List.ext_getElem?
  intro i
  by_cases hi : i < l.length
  · rw [List.getElem?_map, List.getElem?_range hi, List.getElem?_map, List.getElem?_eq_getElem hi]
    simp
  · have hi : l.length ≤ i := by omega
    rw [List.getElem?_eq_none (by simpa using hi), List.getElem?_eq_none (by simpa using hi)]

/-- `zip_fold` is the left fold over the entries of `zip_map(|a, b| (a, b))`. -/
theorem zipFold_eq {a b : BTy} (z : ZipFoldImpl a b) (x : Buf F a) (y : Buf F b) (init : A)
    (f : A → F × F → A) :
    zipFold z x y init f =
      (Res.ofExcept (zipMap z.toZip x y (fun u v => (u, v)))).map
        (fun r => (entries a r).foldl f init) := by
  cases z with
  | ss => rfl
  | tt => rfl
  | vv =>
    have key : ∀ (x y : List F),
        (if x.length = y.length then
          Res.ofOption ((List.range x.length).foldlM
            (fun acc i => (x[i]?).bind (fun xi => (y[i]?).map (fun yi => f acc (xi, yi)))) init)
        else .err ⟨[x.length], [y.length]⟩ : Res IncShapes A) =
        (Res.ofExcept (if [x.length] ≠ [y.length] then .error ⟨[x.length], [y.length]⟩
          else .ok (show List (F × F) from (x.zip y).map (fun p => (p.1, p.2))) :
            Except IncShapes (List (F × F)))).map (fun r => List.foldl f init r) := by
      intro x y
      by_cases h : x.length = y.length
      · rw [if_pos h, if_neg (by simpa using h)]
        rw [foldlM_pairs _ _ _ x y (vec_range_entries x _ rfl) (vec_range_entries y _ h)]
        simp
      · rw [if_neg h, if_pos (by simpa using h)]; rfl
    exact key x y
  | aa ds =>
    show Res.ofOption (NArr.zipFoldSelf ds x y init f) = _
    rw [NArr.zipFoldSelf, foldlM_pairs _ _ _ _ _ (NArr.entries_spec x) (NArr.entries_spec y)]
    show Res.ok _ = Res.ok _
    congr 2
    have h1 := NArr.entries_spec (NArr.zipMapSelf ds x y (fun u v => (u, v)))
    have h2 : (Shape.indices ds).map
        (NArr.getU ds (NArr.zipMapSelf ds x y (fun u v => (u, v)))) =
        ((NArr.entries ds x).zip (NArr.entries ds y)).map some := by
      have hx := NArr.entries_spec x
      have hy := NArr.entries_spec y
      have hm : ∀ ix ∈ Shape.indices ds, InBounds ds ix := fun ix h => mem_indices.1 h
      revert hx hy hm
      generalize Shape.indices ds = l
      generalize NArr.entries ds x = xs
      generalize NArr.entries ds y = ys
      intro hx hy hm
      induction l generalizing xs ys with
      | nil =>
        cases xs with
        | nil => simp
        | cons => simp at hx
      | cons ix l ih =>
        cases xs with
        | nil => simp at hx
        | cons u xs =>
          cases ys with
          | nil => simp at hy
          | cons v ys =>
            simp only [List.map_cons, List.cons.injEq] at hx hy
            obtain ⟨u', v', hu, hv, hr⟩ :=
              NArr.getU_zipMapSelf x y (fun u v => (u, v)) ix (hm ix List.mem_cons_self)
            rw [hx.1] at hu; rw [hy.1] at hv
            cases hu; cases hv
            simp only [List.map_cons, List.zip_cons_cons, hr]
            rw [ih xs ys hx.2 hy.2 (fun i hi => hm i (List.mem_cons_of_mem _ hi))]
    exact (List.map_injective_iff.2 (Option.some_injective _) (h1.symm.trans h2)).symm
  | as ds =>
    show Res.ofOption (NArr.zipFoldFieldR ds x y init f) = _
    show _ = Res.ok ((entries (.array ds) (NArr.zipMapFieldR ds x y (fun u v => (u, v)))).foldl f
      init)
    rw [NArr.zipMapFieldR_eq_map]
    have h1 : entries (.array ds) (NArr.map ds x (fun u => (u, y))) =
        (entries (.array ds) x).map (fun u => (u, y)) := entries_map (.array ds) x _
    rw [h1, List.foldl_map, NArr.zipFoldFieldR,
      foldlM_option (Shape.indices ds) (NArr.getU ds x) _ (NArr.entries_spec x)
        (fun acc u => f acc (u, y)) init]
    rfl

end Buf

end Aegir
