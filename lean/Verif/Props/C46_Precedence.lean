import Verif.Model.Class
/-!
# C46: storage classes
-/

namespace Aegir

/-- Combining a class with itself changes nothing. -/
theorem C46_idempotent (c : BClass) : precedence c c = c := by cases c <;> rfl

/-- `Scalars` is a unit on both sides, and the only one. -/
theorem C46_unit (u : BClass) :
    (∀ c, precedence u c = c ∧ precedence c u = c) ↔ u = .scalars := by
  constructor
  · intro h
    have := (h .scalars).1
    revert this
    cases u <;> simp [precedence]
  · rintro rfl c
    cases c <;> exact ⟨rfl, rfl⟩

/-- One of the two classes is chosen. -/
theorem C46_selects (c d : BClass) : precedence c d = c ∨ precedence c d = d := by
  cases c <;> cases d <;> simp [precedence]

/-- Grouping does not matter. -/
theorem C46_assoc (a b c : BClass) :
    precedence (precedence a b) c = precedence a (precedence b c) := by
  cases a <;> cases b <;> cases c <;> rfl

/-- Full claim: the order of the operands does not matter. It holds except for `Arrays` with
`Vecs`. -/
theorem C46_comm_partial (c d : BClass) :
    precedence c d = precedence d c ↔
      ¬ ((c = .arrays ∧ d = .vecs) ∨ (c = .vecs ∧ d = .arrays)) := by
  cases c <;> cases d <;> simp [precedence]

/-- `Arrays` before `Vecs` gives `Arrays`, the other way round `Vecs`. -/
theorem C46_violation_comm : ∃ c d, precedence c d ≠ precedence d c :=
  ⟨.arrays, .vecs, by decide⟩

/-- `Shape::DIM`. -/
private def rank : ShTy → Nat
  | .fixed ds => ds.length
  | .dynamic n => n

/-- Concatenated shapes have as many axes as both together; fixed and dynamic shapes are never mixed,
fixed shapes can be concatenated if both have at most five axes and the result at most six, dynamic
ones if both have at most six. -/
theorem C46_concat_rank (a b : ShTy) :
    (∀ c, a.concat b = some c → rank c = rank a + rank b) ∧
      ((∃ ds es, a = .fixed ds ∧ b = .fixed es ∧ rank a ≤ 5 ∧ rank b ≤ 5 ∧ rank a + rank b ≤ 6) ∨
        (∃ n m, a = .dynamic n ∧ b = .dynamic m ∧ rank a ≤ 6 ∧ rank b ≤ 6) ↔
        ∃ c, a.concat b = some c) := by
  cases a with
  | fixed ds =>
    cases b with
    | fixed es =>
      by_cases h : ds.length ≤ 5 ∧ es.length ≤ 5 ∧ ds.length + es.length ≤ 6
      · simp only [ShTy.concat, if_pos h]
        exact ⟨fun c hc => by cases hc; simp [rank], by simp [rank, h]⟩
      · simp only [ShTy.concat, if_neg h]
        exact ⟨by simp, by simpa [rank] using h⟩
    | dynamic m => simp [ShTy.concat]
  | dynamic n =>
    cases b with
    | fixed es => simp [ShTy.concat]
    | dynamic m =>
      by_cases h : n ≤ 6 ∧ m ≤ 6
      · simp only [ShTy.concat, if_pos h]
        exact ⟨fun c hc => by cases hc; simp [rank], by simp [rank, h]⟩
      · simp only [ShTy.concat, if_neg h]
        exact ⟨by simp, by simpa [rank] using h⟩

example : (ShTy.dynamic 2).concat (.dynamic 3) = some (.dynamic 5) := rfl

/-- The buffer type of a class for a shape has this class and this shape; and every buffer type is the
one of its class for its shape. -/
theorem C46_buffer (k : BClass) (s : ShTy) (τ : BTy) :
    k.buffer s = some τ ↔ τ.valid = true ∧ τ.cls = k ∧ τ.shTy = s := by
  constructor
  · intro h
    unfold BClass.buffer at h
    split at h
    · cases h; exact ⟨rfl, rfl, rfl⟩
    · split at h
      · next hd => cases h; exact ⟨by simpa [BTy.valid] using hd, rfl, rfl⟩
      · cases h
    · cases h; exact ⟨rfl, rfl, rfl⟩
    · cases h; exact ⟨rfl, rfl, rfl⟩
    · cases h
  · rintro ⟨hv, rfl, rfl⟩
    cases τ with
    | array ds => simpa [BClass.buffer, BTy.cls, BTy.shTy, BTy.valid] using hv
    | _ => rfl

example : BClass.arrays.buffer (.fixed [2, 3]) = some (.array [2, 3]) := rfl
example : BClass.vecs.buffer (.fixed [2]) = none := rfl

private theorem concat_arrays (ds es : Dims) (c : BTy) :
    (((ShTy.fixed ds).concat (.fixed es)).bind fun s => BClass.arrays.buffer s) = some c ↔
      1 ≤ ds.length + es.length ∧ ds.length + es.length ≤ 5 ∧ c = .array (ds ++ es) := by
  simp only [ShTy.concat]
  split_ifs with h
  · simp only [Option.bind_some, BClass.buffer, List.length_append]
    split_ifs with h'
    · simp [h', eq_comm]
    · simp only [false_iff]
      omega
  · simp only [Option.bind_none, reduceCtorEq, false_iff]
    omega

/-- The types at which adjoints are evaluated are those that the trait bounds select, for all pairs of
buffer types. -/
theorem C46_adjoint_types (a b c : BTy) (ha : a.valid = true) (hb : b.valid = true) :
    Nonempty (ConcatImpl a b c) ↔ concatTy a b = some c := by
  constructor
  · rintro ⟨k⟩
    cases k with
    | ss => rfl
    | st => rfl
    | ts => rfl
    | sa es =>
      simp [BTy.valid] at hb
      exact (concat_arrays [] es _).2 ⟨by simp; omega, by simp; omega, rfl⟩
    | as ds =>
      simp [BTy.valid] at ha
      exact (concat_arrays ds [] _).2 ⟨by simp; omega, by simp; omega, by simp⟩
    | aa ds es h =>
      simp [BTy.valid] at ha
      exact (concat_arrays ds es _).2 ⟨by omega, h, rfl⟩
    | ta es h => exact (concat_arrays [2] es _).2 ⟨by simp, by simp; omega, rfl⟩
    | «at» ds h => exact (concat_arrays ds [2] _).2 ⟨by simp, by simp; omega, rfl⟩
  · intro h
    cases a with
    | scalar =>
      cases b with
      | scalar => cases h; exact ⟨.ss⟩
      | array es => obtain ⟨_, _, rfl⟩ := (concat_arrays [] es _).1 h; exact ⟨.sa es⟩
      | tuple => cases h; exact ⟨.st⟩
      | vec => cases h
    | array ds =>
      cases b with
      | scalar =>
        obtain ⟨_, _, rfl⟩ := (concat_arrays ds [] _).1 h
        rw [List.append_nil]
        exact ⟨.as ds⟩
      | array es => obtain ⟨_, h', rfl⟩ := (concat_arrays ds es _).1 h; exact ⟨.aa ds es h'⟩
      | tuple =>
        obtain ⟨_, h', rfl⟩ := (concat_arrays ds [2] _).1 h
        exact ⟨.at ds (by simp at h'; omega)⟩
      | vec => cases h
    | tuple =>
      cases b with
      | scalar => cases h; exact ⟨.ts⟩
      | array es =>
        obtain ⟨_, h', rfl⟩ := (concat_arrays [2] es _).1 h
        exact ⟨.ta es (by simp at h'; omega)⟩
      | tuple => cases h
      | vec => cases h
    | vec => cases b <;> cases h

/-- Nothing in which a `Vec` takes part has an adjoint type, so the asymmetric pair is never
used ... -/
theorem C46_no_vec (a c : BTy) : concatTy a .vec ≠ some c ∧ concatTy .vec a ≠ some c := by
  cases a <;> simp [concatTy, BTy.shTy, ShTy.concat, BTy.cls, precedence, BClass.buffer]

/-- ... and the class of an adjoint does not depend on the order of value and target. -/
theorem C46_adjoint_class_comm {a b c c' : BTy} (h : concatTy a b = some c)
    (h' : concatTy b a = some c') : c.cls = c'.cls ∧ c.cls = precedence a.cls b.cls := by
  have key : ∀ {k : BClass} {s : ShTy} {t : BTy}, k.buffer s = some t → t.cls = k := by
    intro k s t h
    unfold BClass.buffer at h
    split at h <;> first | (cases h; rfl) | (split at h <;> cases h; rfl) | cases h
  have e1 : c.cls = precedence a.cls b.cls := by
    obtain ⟨s, _, hs⟩ := Option.bind_eq_some_iff.1 h
    exact key hs
  have e2 : c'.cls = precedence b.cls a.cls := by
    obtain ⟨s, _, hs⟩ := Option.bind_eq_some_iff.1 h'
    exact key hs
  refine ⟨?_, e1⟩
  rw [e1, e2, C46_comm_partial]
  rintro (⟨_, hb⟩ | ⟨ha, _⟩)
  · cases b <;> simp [BTy.cls] at hb
    exact (C46_no_vec a c).1 h
  · cases a <;> simp [BTy.cls] at ha
    exact (C46_no_vec b c).2 h

example : concatTy .tuple (.array [3]) = some (.array [2, 3]) ∧
    concatTy (.array [3]) .tuple = some (.array [3, 2]) ∧ (BTy.array [3]).valid = true :=
  ⟨rfl, rfl, rfl⟩

end Aegir
