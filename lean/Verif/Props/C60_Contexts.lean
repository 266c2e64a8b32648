import Verif.Lemmas.EvalIn
import Verif.Lemmas.Node
import Verif.Spec.Instances
import Verif.Props.C42_Store
import Verif.Props.C28_C32_Derivatives
/-!
# C60: evaluation in a derived context

The evaluation properties are stated for the map from identifiers to values. They carry over to
every context type whose `Read` and `Write` impls are lawful, in particular to the structs of
`#[derive(Context)]`.
-/

namespace Aegir

open Spec Store Props

variable {F : Type} {Γ : Id → BTy} {σ : Type}

section
variable [Zero F] [One F] [Add F] [Sub F] [Mul F] [Div F] [Neg F] [ScalarFns F]

/-- In a lawful context type all three methods return what they return in the map of its contents,
and leave the contents of that map behind. -/
theorem C60_evaluate {I : CtxImpl F Γ σ} {W : Id → Prop} (hI : LawfulCtx I W) {e : Node F} {τ : BTy}
    (d : FnImpl Γ e τ) (hW : ∀ i, CacheId e i → W i) (s : σ) :
    (((d.fnIn I).evaluate s).1 = (d.evaluate (I.read s)).1 ∧
      I.read ((d.fnIn I).evaluate s).2 = (d.evaluate (I.read s)).2) ∧
    (((d.fnIn I).evaluateSpec s).1 = (d.evaluateSpec (I.read s)).1 ∧
      I.read ((d.fnIn I).evaluateSpec s).2 = (d.evaluateSpec (I.read s)).2) ∧
    ((d.fnIn I).evaluateShape s).1 = (d.evaluateShape (I.read s)).1 ∧
      I.read ((d.fnIn I).evaluateShape s).2 = (d.evaluateShape (I.read s)).2 :=
  have h := d.refines hI hW
  ⟨h.1 s, h.2.1 s, h.2.2 s⟩

/-- Evaluation touches a context of any type only by writing to cache identifiers: whatever those
writes preserve is preserved, lawful or not. -/
theorem C60_invariant (I : CtxImpl F Γ σ) (P : σ → Prop) {e : Node F} {τ : BTy} (d : FnImpl Γ e τ)
    (hP : ∀ s i v, CacheId e i → P s → P (I.write s i v)) (s : σ) (hs : P s) :
    P ((d.fnIn I).evaluate s).2 ∧ P ((d.fnIn I).evaluateSpec s).2 ∧
      P ((d.fnIn I).evaluateShape s).2 :=
  have h := d.preserves I hP
  ⟨h.1 s hs, h.2.1 s hs, h.2.2 s hs⟩

end

/-- A context type that implements only `read` and `write` is lawful if its `write` is. -/
theorem C60_default (read : σ → (i : Id) → Option (Buf F (Γ i)))
    (write : σ → (i : Id) → Buf F (Γ i) → σ) (W : Id → Prop)
    (h : ∀ s i v, W i → read (write s i v) = Ctx.write (read s) i v) :
    LawfulCtx (CtxImpl.ofRead read write) W where
  spec _ _ := rfl
  shape _ _ := rfl
  same s i v hi := by
    have := congrFun (h s i v hi) i
    simp only [Ctx.write, dite_true] at this
    exact this
  other s i v j hi hj := by
    have := congrFun (h s i v hi) j
    simp only [Ctx.write, hj, dite_false] at this
    exact this

/-- The map itself is such a type. -/
example : LawfulCtx (CtxImpl.ofRead (F := ℤ) (Γ := Γ) (σ := Ctx ℤ Γ) (fun c => c) Ctx.write)
    (fun _ => True) := C60_default _ _ _ fun _ _ _ _ => rfl

/-- The impls generated by `#[derive(Context)]` are lawful for the identifiers of the struct. -/
theorem C60_derived_lawful [Zero F] (S : Struct) (hS : Coherent S) :
    LawfulCtx (CtxImpl.derived F S) (fun i => ∃ k, Owns S k i) where
  spec s i := (C42_reads_agree s i).1
  shape s i := (C42_reads_agree s i).2
  same s i v := fun ⟨k, hk⟩ => (C42_read_write s i k hk hS v).1
  other s i v j _ hj := (C42_independent s i j (Ne.symm hj) v).1

section
variable [Zero F] [One F] [Add F] [Sub F] [Mul F] [Div F] [Neg F] [ScalarFns F]

/-- Evaluation in a derived struct, for expressions whose cache identifiers are fields of the struct
(otherwise `C: Write<T>` fails and the program is rejected). -/
theorem C60_derived {S : Struct} (hS : Coherent S) {e : Node F} {τ : BTy} (d : FnImpl S.types e τ)
    (hW : ∀ i, CacheId e i → ∃ k, Owns S k i) (s : State F S) :
    ((d.fnIn (.derived F S)).evaluate s).1 = (d.evaluate s.read).1 ∧
      ((d.fnIn (.derived F S)).evaluate s).2.read = (d.evaluate s.read).2 :=
  (C60_evaluate (C60_derived_lawful S hS) d hW s).1

/-- Fields other than the caches of the expression keep their contents, with or without
identifier. -/
theorem C60_derived_frame {S : Struct} {e : Node F} {τ : BTy} (d : FnImpl S.types e τ)
    (s : State F S) (k : Fin S.length) (hk : ∀ i, CacheId e i → ¬ Owns S k i) :
    ((d.fnIn (.derived F S)).evaluate s).2 k = s k :=
  (C60_invariant (.derived F S) (fun s' => s' k = s k) d
    (fun s' i v hi hs' => (C42_frame s' i v k (hk i hi)).trans hs') s rfl).1

/-- What a program does with a context: evaluate an expression (for its value, or only its shape), or
assign to an identifier. -/
inductive Action (F : Type) (Γ : Id → BTy) : Type
  | value {e : Node F} {τ : BTy} (d : FnImpl Γ e τ)
  | shape {e : Node F} {τ : BTy} (d : FnImpl Γ e τ)
  | assign (i : Id) (v : Buf F (Γ i))

/-- The identifiers that the action may write to are in `W`. -/
def Action.Within (W : Id → Prop) : Action F Γ → Prop
  | .value (e := e) _ => ∀ i, CacheId e i → W i
  | .shape (e := e) _ => ∀ i, CacheId e i → W i
  | .assign i _ => W i

/-- The result of the action (if any) and the context afterwards, for a context type. -/
def Action.runIn (I : CtxImpl F Γ σ) : Action F Γ → σ → Option (Σ τ, Res EvalErr (Buf F τ)) × σ
  | .value (τ := τ) d, s => (some ⟨τ, ((d.fnIn I).evaluate s).1⟩, ((d.fnIn I).evaluate s).2)
  | .shape d, s => (none, ((d.fnIn I).evaluateShape s).2)
  | .assign i v, s => (none, I.write s i v)

/-- The same for the map. -/
def Action.run : Action F Γ → Ctx F Γ → Option (Σ τ, Res EvalErr (Buf F τ)) × Ctx F Γ
  | .value (τ := τ) d, c => (some ⟨τ, (d.evaluate c).1⟩, (d.evaluate c).2)
  | .shape d, c => (none, (d.evaluateShape c).2)
  | .assign i v, c => (none, c.write i v)

/-- The results of a sequence of actions, and the context afterwards. -/
def runsIn (I : CtxImpl F Γ σ) : List (Action F Γ) → σ →
    List (Option (Σ τ, Res EvalErr (Buf F τ))) × σ
  | [], s => ([], s)
  | a :: as, s => let r := a.runIn I s; let rs := runsIn I as r.2; (r.1 :: rs.1, rs.2)

/-- The same for the map. -/
def runs : List (Action F Γ) → Ctx F Γ → List (Option (Σ τ, Res EvalErr (Buf F τ))) × Ctx F Γ
  | [], c => ([], c)
  | a :: as, c => let r := a.run c; let rs := runs as r.2; (r.1 :: rs.1, rs.2)

/-- Every sequence of evaluations and assignments gives the same results in a lawful context type as
in the map of its contents. -/
theorem C60_history {I : CtxImpl F Γ σ} {W : Id → Prop} (hI : LawfulCtx I W)
    (as : List (Action F Γ)) (hW : ∀ a ∈ as, a.Within W) (s : σ) :
    (runsIn I as s).1 = (runs as (I.read s)).1 ∧ I.read (runsIn I as s).2 = (runs as (I.read s)).2 := by
  induction as generalizing s with
  | nil => exact ⟨rfl, rfl⟩
  | cons a as ih =>
    have h1 : (a.runIn I s).1 = (a.run (I.read s)).1 ∧
        I.read (a.runIn I s).2 = (a.run (I.read s)).2 := by
      have ha := hW a (List.mem_cons_self ..)
      cases a with
      | value d =>
        obtain ⟨⟨h1, h2⟩, _⟩ := C60_evaluate hI d ha s
        exact ⟨by simp only [Action.runIn, Action.run, h1], h2⟩
      | shape d =>
        obtain ⟨_, _, _, h2⟩ := C60_evaluate hI d ha s
        exact ⟨rfl, h2⟩
      | assign i v => exact ⟨rfl, hI.write_eq s i ha v⟩
    have h2 := ih (fun a ha => hW a (List.mem_cons_of_mem _ ha)) (a.runIn I s).2
    rw [h1.2] at h2
    exact ⟨by simp only [runsIn, runs, h1.1, h2.1], h2.2⟩

end

/-- The number `r` as value of an identifier of scalar type. -/
def ofReal {τ : BTy} (h : τ = .scalar) (r : ℝ) : Buf ℝ τ := h ▸ (r : Buf ℝ .scalar)

private theorem setEntry_scalar {τ : BTy} (h : τ = .scalar) (b : Buf ℝ τ) (r : ℝ) :
    setEntry b [] r = ofReal h r := by
  subst h; rfl

private theorem getU_ofReal {τ : BTy} (h : τ = .scalar) (r : ℝ) :
    Buf.getU τ (ofReal h r) [] = some r := by
  subst h; rfl

/-- Differentiation in a derived struct of real scalars: evaluating the adjoint in the struct gives
the derivative of the function that assigns a number to the field and evaluates the expression.
Missing: `Cached` nodes, see `C28_violation_cached`. -/
theorem C60_derivative_partial {S : Struct} (hS : Coherent S) {e e' : Node ℝ} {t : Id}
    (h : e.adjoint t = some e') (hf : CacheFree e) (hsc : AllScalar S.types e)
    (ht : S.types t = .scalar) (d : FnImpl S.types e .scalar) (da : FnImpl S.types e' .scalar)
    {k : Fin S.length} (hk : Owns S k t) (s : State ℝ S)
    (hc : ∀ i, NeedsId e i → s.read i ≠ none) {x : ℝ} (hx : s.read t = some (ofReal ht x))
    (hs : Smooth (envOf s.read) t e) :
    ∃ (a : ℝ) (f : ℝ → ℝ), ((da.fnIn (.derived ℝ S)).evaluate s).1 = .ok a ∧
      (∀ r : ℝ, ((d.fnIn (.derived ℝ S)).evaluate (s.write t (ofReal ht r))).1 = .ok (f r)) ∧
      HasDerivAt f a x := by
  have hL := C60_derived_lawful (F := ℝ) S hS
  have free : ∀ {e : Node ℝ}, CacheFree e → ∀ i, CacheId e i → ∃ k, Owns S k i :=
    fun hf i ⟨n, hn⟩ => absurd hn (hf n i)
  obtain ⟨hv, a, x', ha, hx', hd⟩ := C28_scalar_partial h hf hsc ht d da s.read hc hx hs
  have hxx : x' = x := by
    rw [getU_ofReal] at hx'
    exact (Option.some.inj hx').symm
  rw [hxx] at hd
  refine ⟨a, _, (C60_derived hS da (free (adjoint_cacheFree h hf)) s).1.trans ha, fun r => ?_, hd⟩
  obtain ⟨v, hv⟩ := hv r
  have hw : (s.write t (ofReal ht r)).read = Ctx.write s.read t (setEntry (ofReal ht x) [] r) := by
    rw [setEntry_scalar ht]
    exact hL.write_eq s t ⟨k, hk⟩ _
  rw [(C60_derived hS d (free hf) _).1, hw, hv]
  simp only [along, hv]
  rfl

/-- A struct with scalar fields `x`, `y` (identifiers 0 and 1), a cache (identifier 2) and a field
without identifier. -/
abbrev c60S : Struct := [⟨some 0, false, .scalar⟩, ⟨some 1, false, .scalar⟩, ⟨some 2, true, .scalar⟩,
  ⟨none, false, .vec⟩]

theorem c60S_coherent : Coherent c60S := by
  unfold Coherent
  intro j k i hj hk
  match j, k with
  | 0, 0 | 1, 1 | 2, 2 | 3, 3 => rfl
  | 0, 1 | 0, 2 | 1, 0 | 1, 2 | 2, 0 | 2, 1 => cases hj; cases hk
  | 0, 3 | 1, 3 | 2, 3 => cases hk
  | 3, 0 | 3, 1 | 3, 2 => cases hj

/-- `x = 3`, `y = 2`, empty cache. -/
def c60State (F : Type) [OfNat F 3] [OfNat F 2] : State F c60S := fun k =>
  match k with
  | 0 => (3 : F)
  | 1 => (2 : F)
  | 2 => (none : Option F)
  | 3 => ([] : List F)

/-- Evaluating `Cached(x * y)` in the struct fills the cache field and no other. -/
example : let d : FnImpl c60S.types (F := ℤ) _ .scalar :=
      .cached 2 (.mul (.var 0) (.var 1) (.ss))
    ((d.fnIn (.derived ℤ c60S)).evaluate (c60State ℤ)).1 = .ok (6 : ℤ) ∧
    ((d.fnIn (.derived ℤ c60S)).evaluate (c60State ℤ)).2.read 2 = some (6 : ℤ) ∧
    ((d.fnIn (.derived ℤ c60S)).evaluate (c60State ℤ)).2 0 = c60State ℤ 0 := by
  intro d
  have hW : ∀ i, CacheId (F := ℤ) (.cached (.mul (.var 0) (.var 1)) 2) i → ∃ k, Owns c60S k i := by
    rintro i ⟨n, hn⟩
    simp at hn
    exact ⟨2, by rw [hn.2]; rfl⟩
  obtain ⟨h1, h2⟩ := C60_derived c60S_coherent d hW (c60State ℤ)
  refine ⟨h1.trans rfl, (congrFun h2 2).trans rfl, C60_derived_frame d _ 0 ?_⟩
  rintro i ⟨n, hn⟩ hi
  simp at hn
  rw [hn.2] at hi
  cases hi

/-- Evaluate `Cached(x * y)`, assign `x = 5`, evaluate again: the second value is the cached one, in
the struct as in the map. -/
example : let d : FnImpl c60S.types (F := ℤ) _ .scalar := .cached 2 (.mul (.var 0) (.var 1) (.ss))
    (runsIn (.derived ℤ c60S) [.value d, .assign 0 (5 : ℤ), .value d] (c60State ℤ)).1 =
      [some ⟨.scalar, .ok (6 : ℤ)⟩, none, some ⟨.scalar, .ok (6 : ℤ)⟩] := by
  intro d
  have hW : ∀ i, CacheId (F := ℤ) (.cached (.mul (.var 0) (.var 1)) 2) i → ∃ k, Owns c60S k i := by
    rintro i ⟨n, hn⟩
    simp at hn
    exact ⟨2, by rw [hn.2]; rfl⟩
  refine (C60_history (C60_derived_lawful c60S c60S_coherent) _ (fun a ha => ?_) _).1.trans rfl
  rcases List.mem_cons.1 ha with rfl | ha
  · exact hW
  rcases List.mem_cons.1 ha with rfl | ha
  · exact ⟨0, rfl⟩
  · rw [List.mem_singleton.1 ha]
    exact hW

/-- The derivative of `x * y` with respect to `x` is `y = 2`, in the struct. -/
example : ∃ (e' : Node ℝ) (da : FnImpl c60S.types e' .scalar) (a : ℝ) (f : ℝ → ℝ),
    (Node.mul (.var 0) (.var 1) : Node ℝ).adjoint 0 = some e' ∧
    ((da.fnIn (.derived ℝ c60S)).evaluate (c60State ℝ)).1 = .ok a ∧ HasDerivAt f a 3 := by
  have hf : CacheFree (.mul (.var 0) (.var 1) : Node ℝ) := by simp [CacheFree]
  have hsc : AllScalar c60S.types (.mul (.var 0) (.var 1) : Node ℝ) :=
    ⟨fun i hi => by
      obtain rfl | rfl : i = 0 ∨ i = 1 := by 
        have := hi
        simp only [Node.contains, Bool.or_eq_true, beq_iff_eq] at this
        exact this.imp Eq.symm Eq.symm
      all_goals rfl, fun τ b h => by simp at h,
      fun τ b h => by simp at h⟩
  let d : FnImpl c60S.types (.mul (.var 0) (.var 1) : Node ℝ) .scalar := .mul (.var 0) (.var 1) (.ss)
  obtain ⟨da⟩ := C28_evaluable_partial (t := 0) rfl hf hsc rfl d
  obtain ⟨a, f, ha, -, hd⟩ := C60_derivative_partial c60S_coherent rfl hf hsc rfl d da (k := 0) rfl
    (c60State ℝ) (fun i hi => by
      obtain hi | hi : i = 0 ∨ i = 1 := by simpa [NeedsId] using hi
      all_goals subst hi; exact Option.some_ne_none _) (x := 3) rfl ⟨trivial, trivial⟩
  exact ⟨_, da, a, f, rfl, ha, hd⟩

/-- A `read_spec` that describes identifier `0` by a full buffer (correctly: unwrapping gives what
`read` returns), the others as the default does. -/
def c60I : CtxImpl ℤ (fun _ => .scalar) (Ctx ℤ fun _ => .scalar) where
  read c i := c i
  readSpec c i := (c i).map fun x => if i = 0 then .full () x else .raw x
  readShape c i := (c i).map fun _ => ()
  write c i v := c.write i v

/-- The specification law is needed in the strong form (`read_spec` is `Raw` of what is read): a
context type whose specifications unwrap to the right values changes the value of `0 ^ 0`, because
of the wrong arm in `Power` (C19). -/
theorem C60_spec_caveat : ∃ (e : Node ℤ) (d : FnImpl (fun _ => .scalar) e .scalar)
    (c : Ctx ℤ fun _ => .scalar),
    (∀ i, (c60I.readSpec c i).map BSpec.unwrap = c60I.read c i) ∧
    (d.evaluate (c60I.read c)).1 = .ok (1 : ℤ) ∧
    ((d.fnIn c60I).evaluate c).1 = .ok (0 : ℤ) := by
  refine ⟨_, .power (.var 0) (.var 1), fun _ => some (0 : ℤ), fun i => ?_, rfl, rfl⟩
  by_cases h : i = 0 <;> simp only [c60I, h, if_true, if_false] <;> rfl

/-- Without the law that writes reach the field, a cache is never filled and every evaluation
computes again: the context afterwards differs from the map. -/
theorem C60_write_caveat : ∃ (I : CtxImpl ℤ (fun _ => .scalar) (Ctx ℤ fun _ => .scalar)) (e : Node ℤ)
    (d : FnImpl (fun _ => .scalar) e .scalar) (c : Ctx ℤ fun _ => .scalar), CacheId e 1 ∧
    (∀ s i, I.readSpec s i = (I.read s i).map .raw) ∧
    I.read ((d.fnIn I).evaluate c).2 1 ≠ (d.evaluate (I.read c)).2 1 := by
  refine ⟨.ofRead (fun c => c) fun c _ _ => c, .cached (.var 0) 1, .cached 1 (.var 0),
    fun i => if i = 0 then some (5 : ℤ) else none, ⟨_, .refl _⟩, fun _ _ => rfl, ?_⟩
  intro h
  have : (none : Option ℤ) = some 5 := h
  cases this

end Aegir
