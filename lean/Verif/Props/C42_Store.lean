import Verif.Spec.Store
import Verif.Lemmas.Eval
/-!
# C42: derived contexts are lawful stores
-/

namespace Aegir

open Store

variable {F : Type} {S : Struct}

private theorem find_some {i : Id} {k : Fin S.length} (h : S.find i = some k) : Owns S k i := by
  have := List.find?_some h
  simpa [Owns] using this

private theorem find_of_owns (hS : Coherent S) {i : Id} {k : Fin S.length} (h : Owns S k i) :
    S.find i = some k := by
  cases hf : S.find i with
  | none =>
    rw [Struct.find, List.find?_eq_none] at hf
    exact absurd h (by simpa [Owns] using hf k (List.mem_finRange k))
  | some j => rw [hS j k i (find_some hf) h]

private theorem readSpec_write (f : Field) (x : Cell F f) (v : Buf F f.ty) :
    readSpec f (write f x v) = some (.raw v) := by
  obtain ⟨_, _ | _, _⟩ := f <;> rfl

private theorem readShape_eq (f : Field) (x : Cell F f) :
    readShape f x = (readSpec f x).map BSpec.shape := by
  obtain ⟨_, _ | _, _⟩ := f
  · rfl
  · cases x <;> rfl

private theorem readSpec_raw (f : Field) (x : Cell F f) (s : BSpec F f.ty)
    (h : readSpec f x = some s) : ∃ b, s = .raw b := by
  obtain ⟨_, _ | _, _⟩ := f
  · exact ⟨x, (Option.some.inj h).symm⟩
  · obtain ⟨b, _, rfl⟩ := Option.map_eq_some_iff.1 h
    exact ⟨b, rfl⟩

section
variable [Zero F]

/-- After writing `v` to an identifier of the struct, all three ways of reading it give `v`. -/
theorem C42_read_write (s : State F S) (i : Id) (k : Fin S.length) (hk : Owns S k i)
    (hS : Coherent S) (v : Buf F (S.types i)) :
    (s.write i v).read i = some v ∧ (s.write i v).readSpec i = some (.raw v) ∧
    (s.write i v).readShape i = some (Buf.shape _ v) := by
  have key : ∀ (o : Option (Fin S.length)) (v : Buf F (S.tyAt o)), o = some k →
      readAt (writeAt s o v) o = some v ∧ readSpecAt (writeAt s o v) o = some (.raw v) ∧
      readShapeAt (writeAt s o v) o = some (Buf.shape _ v) := by
    rintro _ v rfl
    have h : writeAt s (some k) v k = write S[k] (s k) v := by simp [writeAt]
    have h1 : readSpecAt (writeAt s (some k) v) (some k) = some (.raw v) := by
      simp only [readSpecAt, h]
      exact readSpec_write _ _ _
    refine ⟨?_, h1, ?_⟩
    · exact congrArg (Option.map BSpec.unwrap) h1
    · exact (readShape_eq _ _).trans (congrArg (Option.map BSpec.shape) h1)
  exact key _ v (find_of_owns hS hk)

omit [Zero F] in
/-- Writing one identifier changes no field but its own; in particular no other identifier and no
field without identifier. -/
theorem C42_frame (s : State F S) (i : Id) (v : Buf F (S.types i)) (k : Fin S.length)
    (hk : ¬ Owns S k i) : s.write i v k = s k := by
  have key : ∀ (o : Option (Fin S.length)) (v : Buf F (S.tyAt o)), o ≠ some k →
      writeAt s o v k = s k := by
    intro o v ho
    cases o with
    | none => rfl
    | some j =>
      have : k ≠ j := fun h => ho (by rw [h])
      simp [writeAt, this]
  exact key _ v fun h => hk (find_some h)

/-- Writing one identifier does not change what is read for another. -/
theorem C42_independent (s : State F S) (i j : Id) (hij : i ≠ j) (v : Buf F (S.types i)) :
    (s.write i v).read j = s.read j ∧ (s.write i v).readSpec j = s.readSpec j ∧
    (s.write i v).readShape j = s.readShape j := by
  have key : ∀ o : Option (Fin S.length), o = S.find j →
      readAt (s.write i v) o = readAt s o ∧ readSpecAt (s.write i v) o = readSpecAt s o ∧
      readShapeAt (s.write i v) o = readShapeAt s o := by
    intro o ho
    cases o with
    | none => exact ⟨rfl, rfl, rfl⟩
    | some k =>
      have : s.write i v k = s k := C42_frame s i v k fun h => hij (by
        have := find_some ho.symm
        unfold Owns at h this
        exact Option.some.inj (h.symm.trans this))
      simp only [readAt, readSpecAt, readShapeAt, this]
      exact ⟨rfl, rfl, rfl⟩
  exact key _ rfl

/-- The three ways of reading agree: `read_spec` is the explicit value, `read_shape` its shape. -/
theorem C42_reads_agree (s : State F S) (i : Id) :
    s.readSpec i = (s.read i).map .raw ∧ s.readShape i = (s.read i).map (Buf.shape _) := by
  have key : ∀ o : Option (Fin S.length), readSpecAt s o = (readAt s o).map .raw ∧
      readShapeAt s o = (readAt s o).map (Buf.shape _) := by
    intro o
    cases o with
    | none => exact ⟨rfl, rfl⟩
    | some k =>
      simp only [readAt, readSpecAt, readShapeAt, Store.read, readShape_eq]
      cases h : readSpec S[k] (s k) with
      | none => exact ⟨rfl, rfl⟩
      | some b =>
        obtain ⟨b, rfl⟩ := readSpec_raw _ _ _ h
        exact ⟨rfl, rfl⟩
  exact key _

/-- Plain fields can always be read. -/
theorem C42_plain_some (s : State F S) (i : Id) (k : Fin S.length) (hk : Owns S k i)
    (hS : Coherent S) (hp : S[k].cache = false) : (s.read i).isSome := by
  have h1 : ∀ (f : Field) (x : Cell F f), f.cache = false → (read f x).isSome := by
    rintro ⟨_, _ | _, _⟩ x hf
    · rfl
    · cases hf
  have key : ∀ o : Option (Fin S.length), o = some k → (readAt s o).isSome := by
    rintro _ rfl
    exact h1 _ _ hp
  exact key _ (find_of_owns hS hk)

/-- An identifier reads as absent exactly if its field is a cache field holding `None`. -/
theorem C42_none_iff (s : State F S) (i : Id) (k : Fin S.length) (hk : Owns S k i)
    (hS : Coherent S) : s.read i = none ↔ Blank S[k] (s k) := by
  have h1 : ∀ (f : Field) (x : Cell F f), Store.read f x = none ↔ Blank f x := by
    rintro ⟨_, _ | _, _⟩ x
    · simp [Store.read, readSpec, Blank]
    · cases x with
      | none => exact ⟨fun _ => rfl, fun _ => rfl⟩
      | some v => exact ⟨fun h => (by cases h), fun h => (by cases h)⟩
  have key : ∀ o : Option (Fin S.length), o = some k → (readAt s o = none ↔ Blank S[k] (s k)) := by
    rintro _ rfl
    exact h1 _ _
  exact key _ (find_of_owns hS hk)

private theorem run_eq (s : State F S) (o : Op F S) : o.run s = s.write o.target o.value := by
  cases o <;> rfl

/-- Histories, first half: an identifier that is not assigned keeps its value, so a cache field reads
as absent until it is written. -/
theorem C42_history_unwritten (s : State F S) (ops : List (Op F S)) (i : Id)
    (h : ∀ o ∈ ops, o.target ≠ i) : (runAll s ops).read i = s.read i := by
  induction ops generalizing s with
  | nil => rfl
  | cons o ops ih =>
    rw [show runAll s (o :: ops) = runAll (o.run s) ops from rfl,
      ih _ fun x hx => h x (List.mem_cons_of_mem _ hx), run_eq]
    exact (C42_independent s o.target i (h o (by simp)) o.value).1

/-- Histories, second half: an identifier reads as the value last assigned to it, whatever happened
before and to other identifiers after. -/
theorem C42_history_written (s : State F S) (before after : List (Op F S)) (o : Op F S)
    (k : Fin S.length) (hk : Owns S k o.target) (hS : Coherent S)
    (h : ∀ o' ∈ after, o'.target ≠ o.target) :
    (runAll s (before ++ o :: after)).read o.target = some o.value := by
  rw [show runAll s (before ++ o :: after) = runAll (o.run (runAll s before)) after by
    simp [runAll, List.foldl_append], C42_history_unwritten _ _ _ h, run_eq]
  exact (C42_read_write _ _ k hk hS _).1

/-- What evaluation sees of a struct is the abstract store of the evaluation model, and writing to
the struct is writing to that store. -/
theorem C42_refines (s : State F S) (i : Id) (k : Fin S.length) (hk : Owns S k i)
    (hS : Coherent S) (v : Buf F (S.types i)) :
    ((s.write i v).read : Ctx F S.types) = Ctx.write s.read i v := by
  funext j
  by_cases h : j = i
  · subst h
    simp [Ctx.write, (C42_read_write s j k hk hS v).1]
  · rw [(C42_independent s i j (Ne.symm h) v).1]
    simp [Ctx.write, h]

/-- A struct with a plain vector field, a scalar cache field and a field without identifier. -/
example : let S : Struct := [⟨some 7, false, .vec⟩, ⟨some 3, true, .scalar⟩, ⟨none, false, .tuple⟩]
    Coherent S ∧ Owns S 0 7 ∧ Owns S 1 3 ∧
    ∀ s : State F S, Blank S[1] (s 1) → s.read 3 = none ∧ (s.read 7).isSome := by
  intro S
  have hS : Coherent S := by
    unfold Coherent
    intro j k i hj hk
    match j, k with
    | 0, 0 | 1, 1 | 2, 2 => rfl
    | 0, 1 => cases hj; cases hk
    | 1, 0 => cases hj; cases hk
    | 0, 2 | 1, 2 => cases hk
    | 2, 0 | 2, 1 => cases hj
  exact ⟨hS, rfl, rfl, fun s hs => ⟨(C42_none_iff s 3 1 rfl hS).2 hs, C42_plain_some s 7 0 rfl hS rfl⟩⟩

end

end Aegir
