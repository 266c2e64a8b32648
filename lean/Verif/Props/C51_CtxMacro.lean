import Verif.Spec.CtxMacro
import Verif.Props.C43_CtxParse
import Mathlib.Data.List.Nodup
/-!
# C51: `ctx!`
-/

namespace Aegir

open CtxParse

/-- The parsed field for a key. -/
private def keyField (lower : String → String) (key : String) : CtxField :=
  let ty : Ty := .path false false [.mk ("__" ++ key) .none]
  { name := "_" ++ lower key, ty, bufferTy := ty, ident := some key, isCache := false }

private theorem ctx_expand (lower : String → String) (keys : List String) :
    ∃ fields, ctxType (ctxRaws lower keys) = .ok fields ∧
      fields.map (·.name) = keys.map (fun k => some ("_" ++ lower k)) ∧
      expand (.struct fields) = .ok (keys.map fun k => (k, keyField lower k)) := by
  have key : ∃ fields, ctxType (ctxRaws lower keys) = .ok fields ∧
      fields.map (·.name) = keys.map (fun k => some ("_" ++ lower k)) ∧
      List.Forall₂ (fun f c => parseField f = .ok c) fields (keys.map (keyField lower)) := by
    induction keys with
    | nil => exact ⟨[], rfl, rfl, .nil⟩
    | cons k ks ih =>
      obtain ⟨fields, h1, h2, h3⟩ := ih
      obtain ⟨f, hf, hp, -⟩ := (C43_ctx_type ⟨none, "_" ++ lower k, k⟩).1 (keyField lower k) rfl
      refine ⟨f :: fields, ?_, ?_, .cons hp h3⟩
      · have hn : Raw.normalise ⟨none, "_" ++ lower k, k⟩ = .ok (keyField lower k) := rfl
        have h1' : ctxType (ks.map fun key => (⟨none, "_" ++ lower key, key⟩ : Raw)) = .ok fields := h1
        simp only [ctxRaws, List.map_cons, ctxType, hn, hf, h1', Res.map]
      · simp only [List.map_cons, h2]
        cases hf
        rfl
  obtain ⟨fields, h1, h2, h3⟩ := key
  refine ⟨fields, h1, h2, (C43_accessors _ _).2 ⟨_, h3, ?_⟩⟩
  induction keys with
  | nil => rfl
  | cons k ks _ => simp [keyField, List.filterMap_map, Function.comp_def]

private theorem append_inj (p : String) : Function.Injective fun s : String => p ++ s := by
  intro a b h
  have := congrArg String.toList h
  simp only [String.toList_append, List.append_cancel_left_eq] at this
  exact String.toList_injective this

/-- `ctx!` always expands to a struct with an accessor for every key, in order, and no others. -/
theorem C51_expands (lower : String → String) (keys : List String) :
    ∃ fields impls, ctxType (ctxRaws lower keys) = .ok fields ∧ expand (.struct fields) = .ok impls ∧
      impls.map (·.1) = keys ∧ ∀ p ∈ impls, p.2.isCache = false := by
  obtain ⟨fields, h1, -, h3⟩ := ctx_expand lower keys
  refine ⟨fields, _, h1, h3, by simp [Function.comp_def], ?_⟩
  simp only [List.mem_map]
  rintro p ⟨k, _, rfl⟩
  rfl

/-- Rust accepts the result exactly if the keys differ in more than upper and lower case, and none is
called `Ctx`. -/
theorem C51_accepted_iff {α : Type} (lower : String → String) (kvs : List (String × α))
    (fields : List CtxParse.Field) (impls : List (String × CtxField))
    (hf : ctxType (ctxRaws lower (kvs.map (·.1))) = .ok fields)
    (hi : expand (.struct fields) = .ok impls) :
    Accepted fields (ctxGenerics (ctxRaws lower (kvs.map (·.1)))) impls (ctxLiteral lower kvs) ↔
      (kvs.map fun kv => lower kv.1).Nodup ∧ "Ctx" ∉ kvs.map (·.1) := by
  obtain ⟨fields', h1, h2, h3⟩ := ctx_expand lower (kvs.map (·.1))
  rw [hf] at h1
  cases h1
  rw [hi] at h3
  cases h3
  have hn : (fields.map (·.name)) =
      (kvs.map fun kv => lower kv.1).map fun s => some ("_" ++ s) := by
    rw [h2]; simp [Function.comp_def]
  have hinj : Function.Injective fun s : String => some ("_" ++ s) :=
    fun a b h => append_inj "_" (Option.some.inj h)
  have hk : ((kvs.map (·.1)).map fun k => (k, keyField lower k)).map (·.1) = kvs.map (·.1) := by
    simp [Function.comp_def]
  unfold Accepted
  rw [hk, hn, List.nodup_map_iff hinj]
  constructor
  · exact fun h => ⟨h.1, h.2.2.2.2⟩
  · rintro ⟨h, hc⟩
    have hkeys : (kvs.map (·.1)).Nodup := by
      refine List.Nodup.of_map lower ?_
      simpa [Function.comp_def] using h
    refine ⟨h, ?_, hkeys, ?_, hc⟩
    · have : ctxGenerics (ctxRaws lower (kvs.map (·.1))) = (kvs.map (·.1)).map fun s => "__" ++ s := by
        simp [ctxGenerics, ctxRaws, Function.comp_def]
      rw [this]
      exact hkeys.map (append_inj "__")
    · simp [ctxLiteral, Function.comp_def]

private theorem lookup_map {α : Type} (g : String → String) (kvs : List (String × α))
    (h : (kvs.map fun kv => g kv.1).Nodup) (kv : String × α) (hm : kv ∈ kvs) :
    (kvs.map fun kv => (g kv.1, kv.2)).lookup (g kv.1) = some kv.2 := by
  induction kvs with
  | nil => cases hm
  | cons a kvs ih =>
    simp only [List.map_cons, List.nodup_cons, List.mem_map, not_exists, not_and] at h
    rw [List.map_cons, List.lookup_cons]
    rcases List.mem_cons.1 hm with rfl | hm
    · simp
    · have : (g kv.1 == g a.1) = false := by
        simpa using fun he => h.1 kv hm he
      rw [this]
      exact ih h.2 hm

/-- If the keys differ in more than case, reading a key gives its value, and nothing else can be
read. Missing: keys that differ in case only, see `C51_violation_case`. -/
theorem C51_read_partial {α : Type} (lower : String → String) (kvs : List (String × α))
    (hd : (kvs.map fun kv => lower kv.1).Nodup) (fields : List CtxParse.Field)
    (impls : List (String × CtxField))
    (hf : ctxType (ctxRaws lower (kvs.map (·.1))) = .ok fields)
    (hi : expand (.struct fields) = .ok impls) (i : String) (v : α) :
    readImpl impls (ctxLiteral lower kvs) i = some v ↔ (i, v) ∈ kvs := by
  obtain ⟨fields', h1, -, h3⟩ := ctx_expand lower (kvs.map (·.1))
  rw [hf] at h1
  cases h1
  rw [hi] at h3
  cases h3
  have hkeys : (kvs.map (·.1)).Nodup := by
    refine List.Nodup.of_map lower ?_
    simpa [Function.comp_def] using hd
  have hd' : (kvs.map fun kv => "_" ++ lower kv.1).Nodup := by
    have := hd.map (append_inj "_")
    simpa [Function.comp_def] using this
  have hlook : ∀ kv ∈ kvs, (ctxLiteral lower kvs).lookup ("_" ++ lower kv.1) = some kv.2 :=
    fun kv hm => lookup_map (fun s => "_" ++ lower s) kvs hd' kv hm
  have hfind : ∀ kv ∈ kvs, readImpl ((kvs.map (·.1)).map fun k => (k, keyField lower k))
      (ctxLiteral lower kvs) kv.1 = some kv.2 := by
    intro kv hm
    have : (((kvs.map (·.1)).map fun k => (k, keyField lower k)).find? fun p => p.1 = kv.1) =
        some (kv.1, keyField lower kv.1) := by
      rw [List.find?_map]
      have h2 : ((kvs.map (·.1)).find? fun k => k = kv.1) = some kv.1 := by
        cases hq : (kvs.map (·.1)).find? fun k => k = kv.1 with
        | none =>
          have := List.find?_eq_none.1 hq kv.1 (List.mem_map_of_mem hm)
          simp at this
        | some k =>
          have := List.find?_some hq
          simp at this
          rw [this]
      simp only [Function.comp_def]
      rw [h2]
      rfl
    rw [readImpl, this]
    exact hlook kv hm
  constructor
  · intro h
    have hex : ∃ kv ∈ kvs, kv.1 = i := by
      by_contra hne
      push Not at hne
      have : (((kvs.map (·.1)).map fun k => (k, keyField lower k)).find? fun p => p.1 = i) = none := by
        rw [List.find?_eq_none]
        simp only [List.mem_map]
        rintro p ⟨k, ⟨kv, hkv, rfl⟩, rfl⟩
        simpa using hne kv hkv
      rw [readImpl, this] at h
      cases h
    obtain ⟨kv, hm, rfl⟩ := hex
    rw [hfind kv hm] at h
    cases h
    exact hm
  · intro hm
    exact hfind (i, v) hm

/-- `str::to_lowercase` for ASCII. -/
def asciiLower (s : String) : String := String.ofList (s.toList.map Char.toLower)

/-- `ctx!{X = 1, Y = 2}`. -/
example : ∃ fields impls,
    ctxType (ctxRaws asciiLower ["X", "Y"]) = .ok fields ∧ expand (.struct fields) = .ok impls ∧
    ctxLiteral asciiLower [("X", 1), ("Y", 2)] = [("_x", 1), ("_y", 2)] ∧
    (([("X", 1), ("Y", 2)] : List (String × Nat)).map fun kv => asciiLower kv.1).Nodup ∧
    "Ctx" ∉ ["X", "Y"] := by
  obtain ⟨fields, impls, h1, h2, -⟩ := C51_expands asciiLower ["X", "Y"]
  exact ⟨fields, impls, h1, h2, by decide, by decide, by decide⟩

/-- `ctx!{Xy = 1, XY = 2}` is rejected although the identifiers are distinct: both fields are called
`_xy`. -/
theorem C51_violation_case {α : Type} (u v : α) : ∃ fields impls,
    ctxType (ctxRaws asciiLower ["Xy", "XY"]) = .ok fields ∧
    expand (.struct fields) = .ok impls ∧ (impls.map (·.1)).Nodup ∧
    ¬ Accepted fields (ctxGenerics (ctxRaws asciiLower ["Xy", "XY"])) impls
      (ctxLiteral asciiLower [("Xy", u), ("XY", v)]) := by
  obtain ⟨fields, impls, h1, h2, h3, -⟩ := C51_expands asciiLower ["Xy", "XY"]
  refine ⟨fields, impls, h1, h2, by rw [h3]; decide, fun h => ?_⟩
  have := ((C51_accepted_iff asciiLower [("Xy", u), ("XY", v)] fields impls h1 h2).1 h).1
  revert this
  simp only [List.map_cons, List.map_nil]
  decide

end Aegir
