import Verif.Model.Zip
import Verif.Lemmas.Array
/-! Helper lemmas about buffers. -/

namespace Aegir.Buf

open Spec

variable {F A : Type}

theorem inBounds_one {n : Nat} {ix : Idx} : InBounds [n] ix ↔ ∃ i, i < n ∧ ix = [i] := by
  constructor
  · intro h
    cases h with
    | cons h1 h2 => cases h2; exact ⟨_, h1, rfl⟩
  · rintro ⟨i, hi, rfl⟩
    exact List.Forall₂.cons hi List.Forall₂.nil

theorem inBounds_nil {ix : Idx} : InBounds [] ix ↔ ix = [] := by
  simp [InBounds]

theorem inBounds_two {ix : Idx} : InBounds [2] ix ↔ ix = [0] ∨ ix = [1] := by
  rw [inBounds_one]
  constructor
  · rintro ⟨i, hi, rfl⟩
    have : i = 0 ∨ i = 1 := by omega
    rcases this with rfl | rfl <;> simp
  · rintro (rfl | rfl)
    · exact ⟨0, by omega, rfl⟩
    · exact ⟨1, by omega, rfl⟩

theorem shape_eq_of_fixed {τ : BTy} (h : τ ≠ .vec) (s t : Shp τ) : s = t := by
  cases τ <;> first | rfl | exact absurd rfl h

theorem getU_isSome_iff (τ : BTy) (b : Buf F τ) (ix : Idx) :
    (getU τ b ix).isSome ↔ InBounds (dims τ b) ix := by
  cases τ with
  | scalar =>
    simp only [getU, dims, Shp.dims, inBounds_nil]
    by_cases h : ix = []
    · subst h; exact iff_of_true rfl rfl
    · simp [h]
  | array ds => exact NArr.getU_isSome_iff b ix
  | tuple =>
    simp only [getU, dims, Shp.dims, inBounds_two]
    by_cases h0 : ix = [0]
    · simp [h0]
    · by_cases h1 : ix = [1]
      · simp [h1]
      · simp [h0, h1]
  | vec =>
    simp only [getU, dims, Shp.dims, shape, inBounds_one]
    split
    · rename_i i
      simp
    · rename_i h
      constructor
      · simp
      · rintro ⟨i, _, rfl⟩
        exact absurd rfl (h i)

theorem getU_none (τ : BTy) (b : Buf F τ) (ix : Idx) (h : ¬ InBounds (dims τ b) ix) :
    getU τ b ix = none := by
  rw [← Option.not_isSome_iff_eq_none, getU_isSome_iff]; exact h

theorem getU_some (τ : BTy) (b : Buf F τ) (ix : Idx) (h : InBounds (dims τ b) ix) :
    ∃ x, getU τ b ix = some x := Option.isSome_iff_exists.1 ((getU_isSome_iff τ b ix).2 h)

theorem vec_ext (a b : List F) (hs : a.length = b.length)
    (h : ∀ i, i < a.length → a[i]? = b[i]?) : a = b := by
  apply List.ext_getElem?
  intro i
  by_cases hi : i < a.length
  · exact h i hi
  · rw [List.getElem?_eq_none (by omega), List.getElem?_eq_none (by omega)]

/-- Buffers are determined by their shape and entries. -/
theorem ext (τ : BTy) (a b : Buf F τ) (hs : shape τ a = shape τ b)
    (h : ∀ ix, InBounds (dims τ a) ix → getU τ a ix = getU τ b ix) : a = b := by
  cases τ with
  | scalar =>
    have := h [] (by simp [dims, Shp.dims, InBounds])
    exact Option.some.inj this
  | array ds => exact NArr.ext h
  | tuple =>
    have h0 := h [0] (by simp [dims, Shp.dims, InBounds])
    have h1 := h [1] (by simp [dims, Shp.dims, InBounds])
    simp [getU] at h0 h1
    exact Prod.ext h0 h1
  | vec =>
    exact vec_ext a b hs (fun i hi => h [i] (inBounds_one.2 ⟨i, hi, rfl⟩))

theorem shape_build (τ : BTy) (s : Shp τ) (f : Idx → F) : shape τ (build τ s f) = s := by
  cases τ with
  | vec => exact (List.length_map _).trans (List.length_range (n := s))
  | _ => rfl

theorem dims_build (τ : BTy) (s : Shp τ) (f : Idx → F) : dims τ (build τ s f) = Shp.dims τ s := by
  rw [dims, shape_build]

theorem getU_build (τ : BTy) (s : Shp τ) (f : Idx → F) (ix : Idx) (h : InBounds (Shp.dims τ s) ix) :
    getU τ (build τ s f) ix = some (f ix) := by
  cases τ with
  | scalar =>
    have : ix = [] := inBounds_nil.1 h
    subst this; rfl
  | array ds => exact NArr.getU_build f ix h
  | tuple =>
    rcases inBounds_two.1 h with rfl | rfl <;> rfl
  | vec =>
    obtain ⟨i, hi, rfl⟩ := inBounds_one.1 h
    have : ((List.range s).map (fun i => f [i]))[i]? = some (f [i]) := by
      rw [List.getElem?_map, List.getElem?_range hi]; rfl
    exact this

theorem full_eq_build (τ : BTy) (s : Shp τ) (x : F) : full τ s x = build τ s (fun _ => x) := by
  cases τ with
  | scalar => rfl
  | array ds =>
    apply NArr.ext
    intro ix hix
    exact (NArr.getU_full x ix hix).trans (NArr.getU_build (fun _ => x) ix hix).symm
  | tuple => rfl
  | vec =>
    have : ∀ n : Nat, List.replicate n x = (List.range n).map (fun _ => x) := by
      intro n; rw [List.map_const', List.length_range]
    exact this s

theorem getU_full (τ : BTy) (s : Shp τ) (x : F) (ix : Idx) (h : InBounds (Shp.dims τ s) ix) :
    getU τ (full τ s x) ix = some x := by
  rw [full_eq_build, getU_build _ _ _ _ h]

theorem shape_full (τ : BTy) (s : Shp τ) (x : F) : shape τ (full τ s x) = s := by
  rw [full_eq_build, shape_build]

theorem dims_full (τ : BTy) (s : Shp τ) (x : F) : dims τ (full τ s x) = Shp.dims τ s := by
  rw [dims, shape_full]

theorem get_eq (τ : BTy) (b : Buf F τ) (ix : Idx) : get τ b ix = some (getU τ b ix) := by
  cases τ with
  | scalar => rfl
  | tuple => rfl
  | array ds =>
    simp only [get]
    split
    · rename_i h
      obtain ⟨x, hx⟩ := getU_some (.array ds) b ix (contains_iff.1 h)
      rw [hx]; rfl
    · rename_i h
      rw [getU_none (.array ds) b ix (fun h' => h (contains_iff.2 h'))]
  | vec =>
    simp only [get]
    split
    · rename_i h
      obtain ⟨x, hx⟩ := getU_some .vec b ix (contains_iff.1 h)
      rw [hx]; rfl
    · rename_i h
      rw [getU_none .vec b ix (fun h' => h (contains_iff.2 h'))]

theorem shape_map (τ : BTy) (b : Buf F τ) (f : F → A) : shape τ (map τ b f) = shape τ b := by
  cases τ with
  | vec => exact List.length_map _
  | _ => rfl

theorem dims_map (τ : BTy) (b : Buf F τ) (f : F → A) : dims τ (map τ b f) = dims τ b := by
  rw [dims, shape_map, dims]

theorem getU_map (τ : BTy) (b : Buf F τ) (f : F → A) (ix : Idx) :
    getU τ (map τ b f) ix = (getU τ b ix).map f := by
  cases τ with
  | scalar =>
    simp only [getU, map]
    split <;> rfl
  | array ds => exact NArr.getU_map b f ix
  | tuple =>
    simp only [getU, map]
    split
    · rfl
    · split <;> rfl
  | vec =>
    simp only [getU, map]
    split
    · exact List.getElem?_map ..
    · rfl

theorem mapRef_eq_map (τ : BTy) (b : Buf F τ) (f : F → A) : mapRef τ b f = map τ b f := by
  cases τ with
  | array ds => exact NArr.mapRef_eq_map b f
  | _ => rfl

theorem vec_mutate_loop (f : F → F) (l : List F) (n : Nat) (hn : n ≤ l.length) :
    (List.range n).foldl
        (fun (self : List F) i =>
          match self[i]? with
          | some x => self.set i (f x)
          | none => self) l = (l.take n).map f ++ l.drop n := by
  induction n with
  | zero => simp
  | succ n ih =>
    rw [List.range_succ, List.foldl_append, ih (by omega)]
    have hlt : n < l.length := by omega
    have hlen : ((l.take n).map f).length = n := by simp; omega
    have hd : l.drop n = l[n] :: l.drop (n + 1) := List.drop_eq_getElem_cons hlt
    simp only [List.foldl_cons, List.foldl_nil]
    rw [List.getElem?_append_right (by omega), hlen, Nat.sub_self, hd]
    simp only [List.getElem?_cons_zero]
    rw [List.set_append_right _ _ (by omega), hlen, Nat.sub_self, List.set_cons_zero,
      List.take_succ_eq_append_getElem hlt, List.map_append, List.append_assoc]
    rfl

theorem mutate_eq_map (τ : BTy) (b : Buf F τ) (f : F → F) : mutate τ b f = map τ b f := by
  cases τ with
  | array ds => exact NArr.mutate_eq_map b f
  | vec =>
    have : ∀ l : List F, (List.range l.length).foldl
        (fun (self : List F) i =>
          match self[i]? with
          | some x => self.set i (f x)
          | none => self) l = l.map f := by
      intro l
      have := vec_mutate_loop f l l.length (le_refl _)
      simpa only [List.take_length, List.drop_length, List.append_nil] using this
    exact this b
  | _ => rfl

theorem map_id (τ : BTy) (b : Buf F τ) : map τ b id = b := by
  apply ext
  · exact shape_map τ b id
  · intro ix _
    rw [getU_map, Option.map_id, id]

theorem map_map {B : Type} (τ : BTy) (b : Buf F τ) (f : F → A) (g : A → B) :
    map τ (map τ b f) g = map τ b (g ∘ f) := by
  apply ext
  · rw [shape_map, shape_map, shape_map]
  · intro ix _
    rw [getU_map, getU_map, getU_map, Option.map_map]

theorem map_build (τ : BTy) (s : Shp τ) (g : Idx → F) (f : F → A) :
    map τ (build τ s g) f = build τ s (fun ix => f (g ix)) := by
  apply ext
  · rw [shape_map, shape_build, shape_build]
  · intro ix h
    rw [dims_map, dims_build] at h
    rw [getU_map, getU_build _ _ _ _ h, getU_build _ _ _ _ h]; rfl

theorem map_full (τ : BTy) (s : Shp τ) (x : F) (f : F → A) :
    map τ (full τ s x) f = full τ s (f x) := by
  rw [full_eq_build, map_build, full_eq_build]

/-- The entries in row-major order. -/
def entries : (τ : BTy) → Buf F τ → List F
  | .scalar, x => [x]
  | .array ds, a => NArr.entries ds a
  | .tuple, t => [t.1, t.2]
  | .vec, (a : List F) => a

theorem vec_entries (l : List F) :
    (Shape.indices [l.length]).map (fun ix => getU .vec l ix) = l.map some := by
  have h1 : Shape.indices [l.length] = (List.range l.length).map (fun i => [i]) := by
    simp [Shape.indices, Shape.iproductStep]
  rw [h1, List.map_map]
  apply List.ext_getElem?
  intro i
  by_cases hi : i < l.length
  · rw [List.getElem?_map, List.getElem?_range hi, List.getElem?_map, List.getElem?_eq_getElem hi]
    simp [getU, hi]
  · have hi : l.length ≤ i := by omega
    rw [List.getElem?_eq_none (by simpa using hi), List.getElem?_eq_none (by simpa using hi)]

theorem entries_spec (τ : BTy) (b : Buf F τ) :
    (Shape.indices (dims τ b)).map (getU τ b) = (entries τ b).map some := by
  cases τ with
  | scalar => rfl
  | array ds => exact NArr.entries_spec b
  | tuple => rfl
  | vec =>
    exact vec_entries b

theorem fold_eq_foldl (τ : BTy) (b : Buf F τ) (init : A) (f : A → F → A) :
    fold τ b init f = (entries τ b).foldl f init := by
  cases τ with
  | array ds => exact NArr.fold_eq_foldl b init f
  | _ => rfl

theorem foldlM_option {α β : Type} (ixs : List α) (g : α → Option F) (xs : List F)
    (h : ixs.map g = xs.map some) (f : β → F → β) (init : β) :
    ixs.foldlM (fun acc ix => (g ix).map (f acc)) init = some (xs.foldl f init) := by
  induction ixs generalizing xs init with
  | nil => cases xs <;> simp_all
  | cons a ixs ih =>
    cases xs with
    | nil => simp at h
    | cons x xs =>
      simp only [List.map_cons, List.cons.injEq] at h
      simp only [List.foldlM_cons, h.1, Option.map_some, List.foldl_cons]
      exact ih xs h.2 (f init x)

theorem foldDefault_eq (τ : BTy) (b : Buf F τ) (init : A) (f : A → F → A) :
    foldDefault τ b init f = some (fold τ b init f) := by
  rw [foldDefault, fold_eq_foldl]
  exact foldlM_option _ _ _ (entries_spec τ b) f init

theorem entries_map (τ : BTy) (b : Buf F τ) (f : F → A) :
    entries τ (map τ b f) = (entries τ b).map f := by
  have h1 := entries_spec τ (map τ b f)
  have h2 := entries_spec τ b
  rw [dims_map] at h1
  have h3 : (Shape.indices (dims τ b)).map (getU τ (map τ b f)) =
      ((Shape.indices (dims τ b)).map (getU τ b)).map (Option.map f) := by
    rw [List.map_map]
    apply List.map_congr_left
    intro ix _
    exact getU_map τ b f ix
  rw [h3, h2, List.map_map] at h1
  have h4 : (Option.map f ∘ some : F → Option A) = some ∘ f := rfl
  rw [h4, ← List.map_map] at h1
  exact (List.map_injective_iff.2 (Option.some_injective A) h1).symm

theorem narr_loop {ds : Dims} (a : NArr F ds) (ixs : List Idx) (active : Idx → F)
    (h : ∀ ix ∈ ixs, InBounds ds ix) :
    ∃ b, ixs.foldlM (fun buf ix => NArr.setU ds buf ix (active ix)) a = some b ∧
      ∀ jx, InBounds ds jx →
        NArr.getU ds b jx = if jx ∈ ixs then some (active jx) else NArr.getU ds a jx := by
  induction ixs generalizing a with
  | nil => exact ⟨a, rfl, by simp⟩
  | cons ix ixs ih =>
    obtain ⟨a', ha'⟩ := Option.isSome_iff_exists.1
      ((NArr.setU_isSome a ix (active ix)).2 (h ix List.mem_cons_self))
    obtain ⟨b, hb, hb'⟩ := ih a' (fun x hx => h x (List.mem_cons_of_mem _ hx))
    refine ⟨b, by simp [List.foldlM_cons, ha', hb], fun jx hjx => ?_⟩
    rw [hb' jx hjx]
    by_cases hm : jx ∈ ixs
    · simp [hm]
    · rw [if_neg hm, NArr.getU_setU a a' ix jx (active ix) ha' hjx]
      by_cases hij : jx = ix
      · subst hij; simp
      · simp [hij, hm]

theorem vec_loop (a : List F) (ixs : List Idx) (active : Idx → F)
    (h : ∀ ix ∈ ixs, InBounds [a.length] ix) :
    ∃ b : List F, ixs.foldlM (fun (buf : List F) ix =>
        match ix with
        | [i] => if i < buf.length then some (buf.set i (active [i])) else none
        | _ => none) a = some b ∧ b.length = a.length ∧
      ∀ j, j < a.length → b[j]? = if [j] ∈ ixs then some (active [j]) else a[j]? := by
  induction ixs generalizing a with
  | nil => exact ⟨a, rfl, rfl, by simp⟩
  | cons ix ixs ih =>
    obtain ⟨i, hi, rfl⟩ := Buf.inBounds_one.1 (h ix List.mem_cons_self)
    obtain ⟨b, hb, hbl, hb'⟩ := ih (a.set i (active [i]))
      (fun x hx => by rw [List.length_set]; exact h x (List.mem_cons_of_mem _ hx))
    rw [List.length_set] at hbl
    refine ⟨b, by simp [List.foldlM_cons, hi, hb], hbl, fun j hj => ?_⟩
    rw [hb' j (by rwa [List.length_set])]
    by_cases hm : [j] ∈ ixs
    · simp [hm]
    · by_cases hij : j = i
      · subst hij; simp [hm, hj]
      · simp [hm, hij, List.getElem?_set_ne (Ne.symm hij)]

theorem tuple_loop (a : F × F) (ixs : List Idx) (active : Idx → F) :
    (ixs.foldl (Buf.tupleStep active) a).1 = (if [0] ∈ ixs then active [0] else a.1) ∧
    (ixs.foldl (Buf.tupleStep active) a).2 = (if [1] ∈ ixs then active [1] else a.2) := by
  induction ixs generalizing a with
  | nil => simp
  | cons ix ixs ih =>
    rw [List.foldl_cons, (ih _).1, (ih _).2]
    unfold Buf.tupleStep
    by_cases h0 : ix = [0]
    · subst h0; simp
    · by_cases h1 : ix = [1]
      · subst h1; simp
      · have h0' : ¬ [0] = ix := fun h => h0 h.symm
        have h1' : ¬ [1] = ix := fun h => h1 h.symm
        simp [h0, h1, h0', h1']

end Aegir.Buf
