import Verif.Spec.CtxTokens
import Verif.Props.C23_C27_Contexts
import Verif.Props.C43_CtxParse
import Verif.Props.C60_Contexts
import Verif.Props.C66_Programs
import Mathlib.Data.Countable.Basic
import Mathlib.Logic.Equiv.List
/-!
# C67: contexts declared with `ctx_type!`, from the tokens to the values of programs
-/

namespace Aegir

open CtxParse Store Spec Compile Props

/-! ## Parsing -/

private theorem parseRaw_iff (ts us : List CtxParse.Tok) (r : Raw) :
    parseRaw ts = some (r, us) ↔ ∃ vs, RawWritten r vs ∧ ts = vs ++ us := by
  constructor
  · intro h
    unfold parseRaw at h
    split at h
    · cases h; exact ⟨_, .modified _ _ _, rfl⟩
    · cases h; exact ⟨_, .plain _ _, rfl⟩
    · cases h
  · rintro ⟨vs, h, rfl⟩
    cases h <;> rfl

private theorem CtxParse.RawsWritten.eq_nil {rs : List Raw} (h : RawsWritten rs []) : rs = [] := by
  generalize ht : ([] : List CtxParse.Tok) = ts at h
  cases h with
  | nil => rfl
  | last h => cases h <;> cases ht
  | cons => simp at ht

private theorem parseRaws_iff (n : Nat) (ts : List CtxParse.Tok) (rs : List Raw) :
    parseRaws n ts = some rs ↔ rs.length ≤ n ∧ RawsWritten rs ts := by
  have hnil : ∀ n, parseRaws n [] = some rs ↔ rs.length ≤ n ∧ RawsWritten rs [] := by
    intro n
    simp only [parseRaws, Option.some.injEq]
    constructor
    · rintro rfl; exact ⟨Nat.zero_le _, .nil⟩
    · rintro ⟨-, h⟩; exact h.eq_nil.symm
  induction n generalizing ts rs with
  | zero =>
    cases ts with
    | nil => exact hnil 0
    | cons t ts =>
      simp only [parseRaws, reduceCtorEq, false_iff, not_and]
      intro hl h
      obtain rfl := List.length_eq_zero_iff.1 (Nat.le_zero.1 hl)
      cases h
  | succ n ih =>
    cases ts with
    | nil => exact hnil _
    | cons t ts =>
      have ih' : ∀ ts rs, parseRaws n ts = some rs ↔ rs.length ≤ n ∧ RawsWritten rs ts := by
        intro ts rs
        refine ih ts rs fun m => ?_
        simp only [parseRaws, Option.some.injEq]
        constructor
        · rintro rfl; exact ⟨Nat.zero_le _, .nil⟩
        · rintro ⟨-, h⟩; exact h.eq_nil.symm
      simp only [parseRaws]
      constructor
      · intro h
        split at h
        · rename_i r hr
          cases h
          obtain ⟨vs, hv, he⟩ := (parseRaw_iff _ _ _).1 hr
          rw [List.append_nil] at he
          exact ⟨by simp, he ▸ .last hv⟩
        · rename_i r ts' hr
          obtain ⟨vs, hv, he⟩ := (parseRaw_iff _ _ _).1 hr
          obtain ⟨rs', hrs, rfl⟩ := Option.map_eq_some_iff.1 h
          obtain ⟨hl, hw⟩ := (ih' _ _).1 hrs
          exact ⟨by simpa using hl, he ▸ .cons hv hw⟩
        · cases h
      · rintro ⟨hl, h⟩
        generalize ht : t :: ts = us at h ⊢
        cases h with
        | nil => cases ht
        | last hv =>
          rw [(parseRaw_iff _ _ _).2 ⟨_, hv, (List.append_nil _).symm⟩]
        | cons hv hw =>
          rw [(parseRaw_iff _ _ _).2 ⟨_, hv, rfl⟩]
          exact Option.map_eq_some_iff.2 ⟨_, (ih' _ _).2 ⟨by simpa using hl, hw⟩, rfl⟩

private theorem CtxParse.RawsWritten.length_le {rs : List Raw} {ts : List CtxParse.Tok} (h : RawsWritten rs ts) :
    rs.length ≤ ts.length := by
  induction h with
  | nil => simp
  | last h => cases h <;> simp
  | cons h _ ih => cases h <;> simp <;> omega

/-- The macro reads exactly the tokens `Name { x: X, cache y: Y }`, with or without a last comma, and
reads them in one way only. -/
theorem C67_parse (ts : List CtxParse.Tok) (name : String) (rs : List Raw) :
    parseStruct ts = some ⟨name, rs⟩ ↔ StructWritten name rs ts := by
  constructor
  · intro h
    unfold parseStruct at h
    split at h
    · obtain ⟨rs', h1, h2⟩ := Option.map_eq_some_iff.1 h
      cases h2
      exact ⟨_, ((parseRaws_iff _ _ _).1 h1).2, rfl⟩
    · cases h
  · rintro ⟨us, h, rfl⟩
    exact Option.map_eq_some_iff.2 ⟨rs, (parseRaws_iff _ _ _).2 ⟨h.length_le, h⟩, rfl⟩

private def toks67 : List CtxParse.Tok :=
  [.ident "Ctx", .brace [.ident "x", .colon, .ident "X", .comma, .ident "cache", .ident "c", .colon,
    .ident "C", .comma]]

private def raws67 : List Raw := [⟨none, "x", "X"⟩, ⟨some "cache", "c", "C"⟩]

/-- `Ctx { x: X, cache c: C, }` -/
private theorem written67 : StructWritten "Ctx" raws67 toks67 :=
  ⟨_, .cons (.plain "x" "X") (.cons (.modified "cache" "c" "C") .nil), rfl⟩

/-- `cache: X` is a field called `cache`; `x y z: X`, `x: a::B` and `Ctx { , }` are no contexts. -/
example : StructWritten "C" [⟨none, "cache", "X"⟩]
      [.ident "C", .brace [.ident "cache", .colon, .ident "X"]] ∧
    parseStruct [.ident "C", .brace [.ident "x", .ident "y", .ident "z", .colon, .ident "X"]] = none ∧
    parseStruct [.ident "C", .brace [.ident "x", .colon, .ident "a", .colon, .colon, .ident "B"]] = none ∧
    parseStruct [.ident "C", .brace [.comma]] = none :=
  ⟨⟨_, .last (.plain _ _), rfl⟩, rfl, rfl, rfl⟩

/-! ## Expansion -/

private theorem ctxType_total (rs : List Raw) :
    (∃ fs, ctxType rs = .ok fs) ∧ (∀ r ∈ rs, r.Valid) ∨
      ctxType rs = .panic ∧ ¬ ∀ r ∈ rs, r.Valid := by
  induction rs with
  | nil => exact .inl ⟨⟨_, rfl⟩, by simp⟩
  | cons r rs ih =>
    have hr := (C43_ctx_type r).2
    cases hn : r.normalise with
    | ok c =>
      obtain ⟨f, hf, -⟩ := (C43_ctx_type r).1 c hn
      have hv : r.Valid := hr.1 ⟨c, hn⟩
      simp only [ctxType, hn, hf]
      rcases ih with ⟨⟨fs, h⟩, hvs⟩ | ⟨h, hvs⟩
      · exact .inl ⟨⟨_, by rw [h]; rfl⟩, by simpa [hv] using hvs⟩
      · exact .inr ⟨by rw [h]; rfl, by simpa [hv] using hvs⟩
    | err e =>
      have hv : ¬ r.Valid := fun h => by
        obtain ⟨c, hc⟩ := hr.2 h
        rw [hn] at hc; cases hc
      exact .inr ⟨by simp only [ctxType, hn], by simp [hv]⟩
    | panic =>
      have hv : ¬ r.Valid := fun h => by
        obtain ⟨c, hc⟩ := hr.2 h
        rw [hn] at hc; cases hc
      exact .inr ⟨by simp only [ctxType, hn], by simp [hv]⟩

/-- `ctx_type!` declares a struct for exactly the well-formed inputs whose modifiers are all `cache`,
and panics (a compile error) on all others. -/
theorem C67_accepts (ts : List CtxParse.Tok) :
    ((∃ d, ctxTypeMacro ts = .ok d) ↔ ∃ name rs, StructWritten name rs ts ∧ ∀ r ∈ rs, r.Valid) ∧
    (ctxTypeMacro ts = .panic ↔ ¬ ∃ name rs, StructWritten name rs ts ∧ ∀ r ∈ rs, r.Valid) := by
  have key : (∃ d, ctxTypeMacro ts = .ok d) ∧
      (∃ name rs, StructWritten name rs ts ∧ ∀ r ∈ rs, r.Valid) ∨
      ctxTypeMacro ts = .panic ∧ ¬ ∃ name rs, StructWritten name rs ts ∧ ∀ r ∈ rs, r.Valid := by
    cases hp : parseStruct ts with
    | none =>
      refine .inr ⟨by simp only [ctxTypeMacro, hp], ?_⟩
      rintro ⟨name, rs, h, -⟩
      rw [(C67_parse ts name rs).2 h] at hp
      cases hp
    | some d =>
      obtain ⟨name, rs⟩ := d
      have hw := (C67_parse ts name rs).1 hp
      simp only [ctxTypeMacro, hp]
      rcases ctxType_total rs with ⟨⟨fs, h⟩, hv⟩ | ⟨h, hv⟩
      · exact .inl ⟨⟨_, by rw [h]; rfl⟩, name, rs, hw, hv⟩
      · refine .inr ⟨by rw [h]; rfl, ?_⟩
        rintro ⟨name', rs', hw', hv'⟩
        rw [(C67_parse ts name' rs').2 hw'] at hp
        cases hp
        exact hv hv'
  rcases key with ⟨⟨d, h1⟩, h2⟩ | ⟨h1, h2⟩
  · exact ⟨⟨fun _ => h2, fun _ => ⟨d, h1⟩⟩, by simp [h1, h2]⟩
  · refine ⟨⟨?_, fun h => (h2 h).elim⟩, ⟨fun _ => h2, fun _ => h1⟩⟩
    rintro ⟨d, h⟩
    rw [h1] at h
    cases h

/-- `Ctx { x: X, cache c: C, }` is accepted; `Ctx { mutable x: X }` is well-formed, but panics. -/
example : (∀ r ∈ raws67, r.Valid) ∧
    ctxTypeMacro [.ident "Ctx", .brace [.ident "mutable", .ident "x", .colon, .ident "X"]] = .panic :=
  ⟨by simp [raws67, Raw.Valid], rfl⟩

/-- The store of a written list of fields. -/
private def storeOf (number : String → Id) (inst : Ty → BTy) (rs : List Raw) : Struct :=
  rs.map fun r => ⟨some (number r.ident), r.modifier = some "cache", inst (paramTy r.ident)⟩

/-- The declared struct has the written name, the written fields in order, and one type parameter per
field; `derive(Context)` accepts it, and its accessors are those of a store with one slot per field:
under the written identifier, a cache exactly if the modifier says so, with buffers of the type the
parameter is instantiated with. -/
theorem C67_struct {ts : List CtxParse.Tok} {name : String} {rs : List Raw}
    (h : StructWritten name rs ts) (hv : ∀ r ∈ rs, r.Valid) (number : String → Id) (inst : Ty → BTy) :
    ∃ d, ctxTypeMacro ts = .ok d ∧ d.name = name ∧ d.fields.map (·.name) = rs.map (some ·.name) ∧
      d.generics = rs.map ("__" ++ ·.ident) ∧
      d.store number inst = .ok (rs.map fun r =>
        ⟨some (number r.ident), r.modifier = some "cache", inst (paramTy r.ident)⟩) := by
  have key : ∃ fs cs, ctxType rs = .ok fs ∧ fs.map (·.name) = rs.map (some ·.name) ∧
      extract fs = .ok cs ∧ cs.map (·.slot number inst) = storeOf number inst rs := by
    clear h
    induction rs with
    | nil => exact ⟨[], [], rfl, rfl, rfl, rfl⟩
    | cons r rs ih =>
      obtain ⟨fs, cs, h1, h2, h3, h4⟩ := ih fun r hr => hv r (List.mem_cons_of_mem _ hr)
      obtain ⟨c, hc⟩ := (C43_ctx_type r).2.2 (hv r (List.mem_cons_self ..))
      obtain ⟨f, hf, hp, -⟩ := (C43_ctx_type r).1 c hc
      refine ⟨f :: fs, c :: cs, by simp only [ctxType, hc, hf, h1]; rfl, ?_,
        by simp only [extract, hp, h3]; rfl, ?_⟩
      · rw [List.map_cons, h2]
        have : f.name = some r.name := by
          obtain ⟨o, n, i⟩ := r
          rcases hv _ (List.mem_cons_self ..) with rfl | rfl
          · cases hc; cases hf; rfl
          · cases hc; cases hf; rfl
        rw [this]; rfl
      · rw [List.map_cons, h4]
        obtain ⟨o, n, i⟩ := r
        rcases hv _ (List.mem_cons_self ..) with rfl | rfl
        · cases hc; rfl
        · cases hc; rfl
  obtain ⟨fs, cs, h1, h2, h3, h4⟩ := key
  refine ⟨⟨name, ctxGenerics rs, fs⟩, ?_, rfl, h2, rfl, ?_⟩
  · simp only [ctxTypeMacro, (C67_parse ts name rs).2 h, h1]
    rfl
  · simp only [Declared.store, h3]
    exact congrArg Res.ok h4

/-- What `ctx!` hands to `ctx_type!` is well-formed, for every list of keys: it declares the struct
`Ctx` of C51, with one field per key. -/
theorem C67_ctx (lower : String → String) (keys : List String) :
    StructWritten "Ctx" (ctxRaws lower keys) [.ident "Ctx", .brace (ctxTokens lower keys)] ∧
    ∃ fields, ctxType (ctxRaws lower keys) = .ok fields ∧
      ctxMacro lower keys = .ok ⟨"Ctx", ctxGenerics (ctxRaws lower keys), fields⟩ := by
  have hw : RawsWritten (ctxRaws lower keys) (ctxTokens lower keys) := by
    fun_induction ctxTokens lower keys with
    | case1 => exact .nil
    | case2 key => exact .last (.plain _ _)
    | case3 key keys _ ih => exact .cons (.plain _ _) ih
  have hs : StructWritten "Ctx" (ctxRaws lower keys) [.ident "Ctx", .brace (ctxTokens lower keys)] :=
    ⟨_, hw, rfl⟩
  refine ⟨hs, ?_⟩
  rcases ctxType_total (ctxRaws lower keys) with ⟨⟨fs, h⟩, -⟩ | ⟨-, hv⟩
  · refine ⟨fs, h, ?_⟩
    simp only [ctxMacro, ctxTypeMacro, (C67_parse _ _ _).2 hs, h]
    rfl
  · refine absurd (fun r hr => ?_) hv
    obtain ⟨k, -, rfl⟩ := List.mem_map.1 hr
    exact .inl rfl

/-- `ctx!{X = .., Y = ..}` -/
example : ctxTokens (fun s => if s = "X" then "x" else "y") ["X", "Y"] =
    [.ident "_x", .colon, .ident "X", .comma, .ident "_y", .colon, .ident "Y"] := rfl

/-- Rust accepts the struct only if no identifier is used twice (E0403). Then the accessors are
coherent. -/
theorem C67_coherent {ts : List CtxParse.Tok} {d : Declared} (h : ctxTypeMacro ts = .ok d)
    (hd : d.generics.Nodup) {number : String → Id} (hn : Function.Injective number) (inst : Ty → BTy)
    {S : Struct} (hS : d.store number inst = .ok S) : Coherent S := by
  obtain ⟨name, rs, hw, hv⟩ := (C67_accepts ts).1.1 ⟨d, h⟩
  obtain ⟨d', h', -, -, hg, hs⟩ := C67_struct hw hv number inst
  rw [h] at h'
  cases h'
  rw [hS] at hs
  have hs := Res.ok.inj hs
  rw [hg] at hd
  intro j k i hj hk
  subst hs
  simp only [Fin.getElem_fin, List.getElem_map, Option.some.injEq] at hj hk
  have he : (rs[j.1]'(by simpa using j.2)).ident = (rs[k.1]'(by simpa using k.2)).ident :=
    hn (hj.trans hk.symm)
  have := (List.Nodup.getElem_inj_iff hd (i := j.1) (j := k.1) (hi := by simpa using j.2)
    (hj := by simpa using k.2)).1 (by simp only [List.getElem_map, he])
  exact Fin.ext this

private theorem find_owns {S : Struct} (hS : Coherent S) {i : Id} {k : Fin S.length} (h : Owns S k i) :
    S.find i = some k := by
  cases hf : S.find i with
  | none =>
    rw [Struct.find, List.find?_eq_none] at hf
    exact absurd h (by simpa [Owns] using hf k (List.mem_finRange k))
  | some j =>
    have hj : Owns S j i := by simpa [Owns] using List.find?_some hf
    rw [hS j k i hj h]

/-- A newly constructed struct reads as the values it was given, and its caches as absent. -/
theorem C67_fresh {F : Type} [Zero F] {S : Struct} (hS : Coherent S) (x : (k : Fin S.length) → Buf F S[k].ty)
    (s : State F S) (hs : ∀ k, s k = freshCell S[k] (x k)) {k : Fin S.length} {i : Id} (hk : Owns S k i) :
    (S[k].cache = true → s.read i = none) ∧
    (S[k].cache = false → S.types i = S[k].ty ∧ HEq (s.read i) (some (x k))) := by
  have key : ∀ (f : Store.Field) (b : Buf F f.ty),
      (f.cache = true → Store.read f (freshCell f b) = none) ∧
      (f.cache = false → Store.read f (freshCell f b) = some b) := by
    rintro ⟨_, _ | _, _⟩ b
    · exact ⟨fun h => (nomatch h), fun _ => rfl⟩
    · exact ⟨fun _ => rfl, fun h => (nomatch h)⟩
  have hr : ∀ o, o = some k → (S[k].cache = true → readAt s o = none) ∧
      (S[k].cache = false → S.tyAt o = S[k].ty ∧ HEq (readAt s o) (some (x k))) := by
    rintro _ rfl
    simp only [readAt, hs k]
    exact ⟨(key _ _).1, fun h => ⟨rfl, heq_of_eq ((key _ _).2 h)⟩⟩
  exact hr _ (find_owns hS hk)

/-! ## Programs -/

private theorem types_scalar {ts : List CtxParse.Tok} {D : Declared} (h : ctxTypeMacro ts = .ok D)
    {number : String → Id} {S : Struct} (hS : D.store number (fun _ => .scalar) = .ok S) (i : Id) :
    S.types i = .scalar := by
  obtain ⟨name, rs, hw, hv⟩ := (C67_accepts ts).1.1 ⟨D, h⟩
  obtain ⟨d', h', -, -, -, hs⟩ := C67_struct hw hv number fun _ => .scalar
  rw [h] at h'
  cases h'
  rw [hS] at hs
  have hs := Res.ok.inj hs
  unfold Struct.types
  cases S.find i with
  | none => rfl
  | some k =>
    subst hs
    simp [Struct.tyAt]

private theorem local_value {Γ : Id → BTy} (hΓ : ∀ i, Γ i = .scalar) {n : Node ℝ}
    (c : Ctx ℝ Γ) (v : Point) (hc : ∀ i, n.contains i = true → c i = some (ofReal (hΓ i) (v i)))
    (d : FnImpl scalars n .scalar) : ∃ d' : FnImpl Γ n .scalar,
      (d'.evaluate c).1 = (d.evaluate (pointCtx v)).1 := by
  obtain rfl : Γ = scalars := funext hΓ
  exact ⟨d, (C24_local d c (pointCtx v) hc).1⟩

private theorem in_struct {S : Struct} (hS : Coherent S) {n : Node ℝ} (hf : CacheFree n)
    (d : FnImpl S.types n .scalar) (s : State ℝ S) :
    (d.fnIn (.derived ℝ S)).evaluate s = ((d.evaluate s.read).1, s) := by
  have hW : ∀ i, ¬ CacheId n i := fun i ⟨m, hm⟩ => hf m i hm
  refine Prod.ext (C60_derived hS d (fun i h => (hW i h).elim) s).1 (funext fun k => ?_)
  exact C60_derived_frame d s k fun i h => (hW i h).elim

/-- A scalar program whose context is declared with `ctx_type!`: in a value of the struct whose plain
fields hold the point `v`, the expression evaluates to the value that its source denotes at `v`, and
its adjoint to the partial derivative. The struct itself is unchanged. -/
theorem C67_program {num : String → ℝ} (h2 : num "2.0" = 2)
    (names : String → Option Id) {bs : List (String × Compile.Expr)} {ρ : String → Option Meaning}
    (hb : Binds num (coords names) bs ρ) {e : Compile.Expr} {m : Meaning} (he : Computes num ρ e m)
    {env : String → Option (Node ℝ)} (hc : Compiles (floats num) (varEnv names) bs env) {n : Node ℝ}
    (hn : Constructs env (floats num) e n)
    {ts : List CtxParse.Tok} {D : Declared} (hD : ctxTypeMacro ts = .ok D) (hg : D.generics.Nodup)
    {number : String → Id} (hnum : Function.Injective number) {S : Struct}
    (hS : D.store number (fun _ => .scalar) = .ok S)
    (hvars : ∀ i, n.contains i = true → ∃ k, Owns S k i ∧ S[k].cache = false)
    (v : Point) (s : State ℝ S) (hs : ∀ k i, Owns S k i → S[k].cache = false →
      ∃ h : S.types i = .scalar, s.read i = some (ofReal h (v i))) :
    (∃ d : FnImpl S.types n .scalar, (d.fnIn (.derived ℝ S)).evaluate s = (.ok (m.fn v), s)) ∧
    (m.dom v → ∀ k t, Owns S k t → S[k].cache = false →
      ∃ n' a, n.adjoint t = some n' ∧ HasDerivAt (fun x => m.fn (Function.update v t x)) a (v t) ∧
        ∃ d : FnImpl S.types n' .scalar, (d.fnIn (.derived ℝ S)).evaluate s = (.ok a, s)) := by
  have hco := C67_coherent hD hg hnum _ hS
  have hty := types_scalar hD hS
  have hr := compiles_represents h2 names hb he hc hn
  have hread : ∀ i k, Owns S k i → S[k].cache = false → s.read i = some (ofReal (hty i) (v i)) := by
    intro i k hk hp
    obtain ⟨_, h⟩ := hs k i hk hp
    exact h
  constructor
  · obtain ⟨d⟩ := hr.plain.impl
    obtain ⟨d', hd'⟩ := local_value hty s.read v (fun i hi => by
      obtain ⟨k, hk, hp⟩ := hvars i hi
      exact hread i k hk hp) d
    exact ⟨d', by rw [in_struct hco hr.plain.cacheFree, hd', hr.evaluates v d]⟩
  · intro hdom k t hk hp
    obtain ⟨d⟩ := hr.plain.impl
    obtain ⟨n', hn'⟩ := hr.plain.adjoint t
    obtain ⟨da⟩ := C28_evaluable_partial hn' hr.plain.cacheFree hr.plain.allScalar rfl d
    obtain ⟨a, ha, hd⟩ := hr.differentiates t hn' v hdom da
    obtain ⟨d', hd'⟩ := local_value hty s.read v (fun i hi => by
      rcases (C25_adjoint n n' t i hn').1 hi with hi | rfl
      · obtain ⟨k, hk, hp⟩ := hvars i hi
        exact hread i k hk hp
      · exact hread _ k hk hp) da
    exact ⟨n', a, hn', hd, d', by rw [in_struct hco (adjoint_cacheFree hn' hr.plain.cacheFree), hd', ha]⟩

/-! ### A program

```
ctx_type!(Ctx { x: X, cache c: C, y: Y });
let e = aegir!(x * y + x);
```
-/

private def ctx67 : List CtxParse.Tok :=
  [.ident "Ctx", .brace [.ident "x", .colon, .ident "X", .comma, .ident "cache", .ident "c", .colon,
    .ident "C", .comma, .ident "y", .colon, .ident "Y"]]

private abbrev store67 (number : String → Id) : Struct :=
  [⟨some (number "X"), false, .scalar⟩, ⟨some (number "C"), true, .scalar⟩,
    ⟨some (number "Y"), false, .scalar⟩]

/-- The struct value `Ctx { x, c: None, y }`. -/
private def state67 (number : String → Id) (x y : ℝ) : State ℝ (store67 number) := fun k =>
  match k with
  | 0 => x
  | 1 => (none : Option ℝ)
  | 2 => y

private def expr67 : Compile.Expr :=
  .binary .add (.binary .mul (.path "x") (.path "y")) (.path "x")

private theorem eq_ofReal {τ : BTy} (h : τ = .scalar) (o : Option (Buf ℝ τ)) (r : ℝ)
    (ho : HEq o (some r : Option (Buf ℝ .scalar))) : o = some (ofReal h r) := by
  subst h
  exact eq_of_heq ho

/-- Identifiers can be numbered. -/
example : ∃ number : String → Id, Function.Injective number := by
  refine ⟨fun s => Encodable.encode (s.toList.map Char.toNat), fun a b h => ?_⟩
  have := Encodable.encode_injective h
  exact String.toList_injective (List.map_injective_iff.2 (fun a b h => Char.toNat_inj.1 h) this)

/-- At `x = 2`, `y = 3` it evaluates to `8`, and its derivative in `x` to `4`. -/
example (number : String → Id) (hnum : Function.Injective number) :
    ∃ D n n', ctxTypeMacro ctx67 = .ok D ∧ D.store number (fun _ => .scalar) = .ok (store67 number) ∧
      Constructs (varEnv fun p => if p = "x" then some (number "X") else if p = "y" then
        some (number "Y") else none) (floats fun _ => 2) expr67 n ∧ n.adjoint (number "X") = some n' ∧
      (∃ d : FnImpl (store67 number).types n .scalar,
        (d.fnIn (.derived ℝ _)).evaluate (state67 number 2 3) = (.ok (8 : ℝ), state67 number 2 3)) ∧
      ∃ d : FnImpl (store67 number).types n' .scalar,
        (d.fnIn (.derived ℝ _)).evaluate (state67 number 2 3) = (.ok (4 : ℝ), state67 number 2 3) := by
  have hXY : number "X" ≠ number "Y" := fun h => absurd (hnum h) (by decide)
  generalize hnames : (fun p : String => if p = "x" then some (number "X") else if p = "y" then
        some (number "Y") else none) = names
  have hx : coords names "x" = some ⟨fun v => v (number "X"), fun _ => True⟩ := by
    subst hnames; rfl
  have hy : coords names "y" = some ⟨fun v => v (number "Y"), fun _ => True⟩ := by
    subst hnames; rfl
  have he : Computes (fun _ => 2) (coords names) expr67 _ :=
    .add (.mul (.path hx) (.path hy)) (.path hx)
  have hw : StructWritten "Ctx" [⟨none, "x", "X"⟩, ⟨some "cache", "c", "C"⟩, ⟨none, "y", "Y"⟩] ctx67 :=
    ⟨_, .cons (.plain "x" "X") (.cons (.modified "cache" "c" "C") (.last (.plain "y" "Y"))), rfl⟩
  obtain ⟨D, hD, -, -, hg, hS⟩ := C67_struct hw (by simp [Raw.Valid]) number fun _ => .scalar
  have hS : D.store number (fun _ => .scalar) = .ok (store67 number) := by
    rw [hS]; rfl
  obtain ⟨env, n, hc, hn⟩ := C66_compiles rfl names (.nil _) he
  cases hc
  have hnode : n = .add (.mul (.var (number "X")) (.var (number "Y"))) (.var (number "X")) := by
    have hX : varEnv (F := ℝ) names "x" = some (.var (number "X")) := by subst hnames; rfl
    have hY : varEnv (F := ℝ) names "y" = some (.var (number "Y")) := by subst hnames; rfl
    exact constructs_unique hn (C41_expansion _ _ _ _ (.add (.mul (.path hX) (.path hY)) (.path hX)))
  have hco := C67_coherent hD (by rw [hg]; decide) hnum _ hS
  let v : Point := fun i => if i = number "X" then 2 else 3
  have hv0 : v (number "X") = 2 := if_pos rfl
  have hv1 : v (number "Y") = 3 := if_neg hXY.symm
  have hfresh := fun k i => C67_fresh (F := ℝ) hco
    (fun k => match k with
      | 0 => (2 : ℝ)
      | 1 => (0 : ℝ)
      | 2 => (3 : ℝ)) (state67 number 2 3)
    (fun k => match k with
      | 0 | 1 | 2 => rfl) (k := k) (i := i)
  obtain ⟨h1, h2⟩ := C67_program rfl names (.nil _) he (.nil _) hn hD (by rw [hg]; decide) hnum hS
    (by
      subst hnode
      intro i hi
      simp only [Node.contains, Bool.or_eq_true, beq_iff_eq] at hi
      rcases hi with (rfl | rfl) | rfl
      exacts [⟨0, rfl, rfl⟩, ⟨2, rfl, rfl⟩, ⟨0, rfl, rfl⟩])
    v (state67 number 2 3)
    (by
      intro k i hk hp
      obtain ⟨ht, hr⟩ := (hfresh k i hk).2 hp
      match k with
      | 0 =>
        obtain rfl : number "X" = i := Option.some.inj hk
        exact ⟨ht, eq_ofReal ht _ _ (hv0 ▸ hr)⟩
      | 1 => cases hp
      | 2 =>
        obtain rfl : number "Y" = i := Option.some.inj hk
        exact ⟨ht, eq_ofReal ht _ _ (hv1 ▸ hr)⟩)
  obtain ⟨n', a, hn', ha, h3⟩ := h2 ⟨⟨trivial, trivial⟩, trivial⟩ 0 (number "X") rfl rfl
  refine ⟨D, n, n', hD, hS, hn, hn', ?_, ?_⟩
  · simp only [hv0, hv1] at h1
    norm_num at h1
    exact h1
  · have ha' : HasDerivAt (fun x : ℝ => x * 3 + x) a 2 := by
      simpa [hv0, hv1, hXY.symm] using ha
    have : HasDerivAt (fun x : ℝ => x * 3 + x) 4 2 :=
      (((hasDerivAt_id (2 : ℝ)).mul_const 3).add (hasDerivAt_id 2)).congr_deriv (by norm_num)
    rw [ha'.unique this] at h3
    exact h3

end Aegir
