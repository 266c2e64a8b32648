import Verif.Model.Unsafe
import Verif.Lemmas.Array
import Verif.Spec.Instances
/-!
# C87: the `unsafe` blocks are sound

No input leads to undefined behaviour, not even a closure that panics, and the functions that contain the blocks
compute what the rest of the model says they do.
-/

namespace Aegir.Props
open NArr Raw
variable {F A : Type}

/-! ### Undefined behaviour -/

/-- `unwrap_unchecked` is undefined exactly for errors, and otherwise returns the value. -/
theorem C87_unchecked {ε : Type} (r : Except ε A) :
    (Out.unwrapUnchecked r = .ub ↔ ∃ e, r = .error e) ∧ ∀ a, r = .ok a → Out.unwrapUnchecked r = .ok a := by
  constructor
  · cases r with
    | ok a =>
      constructor
      · intro h; cases h
      · rintro ⟨e, h⟩; cases h
    | error e => exact ⟨fun _ => ⟨e, rfl⟩, fun _ => rfl⟩
  · rintro a rfl
    rfl

example : Out.unwrapUnchecked (.error () : Except Unit ℕ) = .ub := (C87_unchecked _).1.2 ⟨(), rfl⟩

/-! ### Making arrays -/

theorem arrayInit_cases : ∀ {d : Nat} {ds : Dims} (f : Fin d → Out (NArr A ds)), (∀ i, f i ≠ .ub) →
    (arrayInit f = .panic ∧ ∃ i, f i = .panic) ∨ ∃ v, arrayInit f = .ok v ∧ ∀ i, f i = .ok (v.row i) := by
  intro d ds f h
  induction d with
  | zero =>
    refine .inr ⟨Vector.ofFn (fun i => i.elim0), ?_, fun i => i.elim0⟩
    show Vector.ofFnM f = _
    rw [Vector.ofFnM_zero]
    exact congrArg Out.ok (Vector.ext fun i hi => absurd hi (Nat.not_lt_zero i))
  | succ d ih =>
    have e : arrayInit f = (arrayInit (fun i => f i.castSucc) >>= fun as => f (Fin.last d) >>= fun a =>
        Out.ok (Vector.push (show Vector (NArr A ds) d from as) a)) := by
      show Vector.ofFnM f = _
      rw [Vector.ofFnM_succ]
      rfl
    rcases ih (fun i => f i.castSucc) (fun i => h _) with ⟨h1, i, hi⟩ | ⟨v, h1, h2⟩
    · exact .inl ⟨by rw [e, h1]; rfl, _, hi⟩
    · rcases hl : f (Fin.last d) with a | _ | _
      · refine .inr ⟨Vector.push (show Vector (NArr A ds) d from v) a, ?_, ?_⟩
        · rw [e, h1, hl]; rfl
        · intro i
          refine Fin.lastCases ?_ (fun j => ?_) i
          · rw [hl]
            congr 1
            exact (Vector.getElem_push_eq (xs := (v : Vector (NArr A ds) d)) (x := a)).symm
          · rw [h2 j]
            congr 1
            exact (Vector.getElem_push_lt (xs := (v : Vector (NArr A ds) d)) (x := a) j.isLt).symm
      · exact .inl ⟨by rw [e, h1, hl]; rfl, _, hl⟩
      · exact absurd hl (h _)

/-! ### `zip_map` -/

/-- What a `zip_map` should do with closures that may panic, without reference to how it is done: `arg ix` are the
arguments of the closure at the index `ix`. Either some call panics and so does the whole, or it returns `Ok` of
the array of the results. -/
def Lifts (ds : Dims) (arg : Idx → Option (F × F)) (f : F → F → Out A)
    (r : Out (Except IncShapes (NArr A ds))) : Prop :=
  (r = .panic ∧ ∃ ix p, arg ix = some p ∧ f p.1 p.2 = .panic) ∨
  ∃ v, r = .ok (.ok v) ∧ ∀ ix p, arg ix = some p → ∃ z, f p.1 p.2 = .ok z ∧ getU ds v ix = some z

/-- The arguments at the index `ix`, for two arrays. -/
def both (ds : Dims) (a b : NArr F ds) (ix : Idx) : Option (F × F) :=
  (getU ds a ix).bind fun x => (getU ds b ix).map fun y => (x, y)

theorem getU_row {d : Nat} {ds : Dims} (a : NArr F (d :: ds)) (i : Fin d) (ix : Idx) :
    getU (d :: ds) a (i.val :: ix) = getU ds (a.row i) ix := getU_cons a i.val ix i.isLt

theorem getU_cons_some {d : Nat} {ds : Dims} {a : NArr F (d :: ds)} {ix : Idx} {x : F}
    (h : getU (d :: ds) a ix = some x) : ∃ (i : Fin d) (jx : Idx), ix = i.val :: jx := by
  match ix, h with
  | i :: jx, h =>
    rw [getU] at h
    split at h
    · exact ⟨⟨i, by assumption⟩, jx, rfl⟩
    · exact absurd h (by simp)

/-- From rows to the whole. -/
theorem lifts_rows {d : Nat} {ds : Dims} {arg : Idx → Option (F × F)} {f : F → F → Out A}
    (r : Fin d → Out (NArr A ds))
    (hc : ∀ ix p, arg ix = some p → ∃ (i : Fin d) (jx : Idx), ix = i.val :: jx)
    (hr : ∀ i, Lifts ds (fun jx => arg (i.val :: jx)) f (Except.ok <$> r i)) :
    Lifts (d :: ds) arg f (Except.ok <$> arrayInit r) := by
  have hub : ∀ i, r i ≠ .ub := by
    intro i hi
    rcases hr i with ⟨h, -⟩ | ⟨v, h, -⟩ <;> rw [hi] at h <;> cases h
  rcases arrayInit_cases r hub with ⟨h1, i, hi⟩ | ⟨v, h1, h2⟩
  · refine .inl ⟨by rw [h1]; rfl, ?_⟩
    rcases hr i with ⟨-, jx, p, hp, hf⟩ | ⟨v, h, -⟩
    · exact ⟨_, p, hp, hf⟩
    · rw [hi] at h; cases h
  · refine .inr ⟨v, by rw [h1]; rfl, fun ix p hp => ?_⟩
    obtain ⟨i, jx, rfl⟩ := hc ix p hp
    rcases hr i with ⟨h, -⟩ | ⟨w, h, hw⟩
    · rw [h2 i] at h; cases h
    · rw [h2 i] at h
      have e : v.row i = w := by injection h with h; injection h
      obtain ⟨z, hz, hg⟩ := hw jx p hp
      exact ⟨z, hz, by rw [getU_row, e]; exact hg⟩

theorem lifts_scalar {arg : Idx → Option (F × F)} {f : F → F → Out A} (hf : ∀ x y, f x y ≠ .ub) {x y : F}
    (harg : arg [] = some (x, y)) (hn : ∀ ix p, arg ix = some p → ix = []) :
    Lifts [] arg f (Except.ok <$> (show Out A from f x y)) := by
  rcases h : f x y with z | _ | _
  · refine .inr ⟨z, rfl, fun ix p hp => ?_⟩
    obtain rfl := hn ix p hp
    rw [harg] at hp
    obtain rfl := Option.some.inj hp
    exact ⟨z, h, rfl⟩
  · exact .inl ⟨rfl, [], _, harg, h⟩
  · exact absurd h (hf x y)

/-- `unwrap_unchecked` of a row that was computed is a row. -/
theorem lifts_unwrap {ds : Dims} {arg : Idx → Option (F × F)} {f : F → F → Out A}
    {r : Out (Except IncShapes (NArr A ds))} (h : Lifts ds arg f r) :
    Lifts ds arg f (Except.ok <$> (r >>= Out.unwrapUnchecked)) := by
  rcases h with ⟨rfl, h⟩ | ⟨v, rfl, h⟩
  · exact .inl ⟨rfl, h⟩
  · exact .inr ⟨v, rfl, h⟩

theorem getU_nil_ix {x : F} {ix : Idx} {z : F} (h : getU ([] : Dims) (show NArr F [] from x) ix = some z) : ix = [] := by
  match ix, h with
  | [], _ => rfl

/-- Two arrays: whatever the closure does, short of undefined behaviour of its own, `zip_map` either returns `Ok`
with the closure applied at every index, or panics because the closure panicked there. It never returns an error,
which is what the `unwrap_unchecked`s rely on. -/
theorem C87_zip_self : ∀ (ds : Dims) (a b : NArr F ds) (f : F → F → Out A), (∀ x y, f x y ≠ .ub) →
    Lifts ds (both ds a b) f (zipMapSelfU ds a b f) := by
  intro ds a b f hf
  have hc : ∀ {d ds} (a b : NArr F (d :: ds)) ix p, both (d :: ds) a b ix = some p →
      ∃ (i : Fin d) (jx : Idx), ix = i.val :: jx := by
    intro d ds a b ix p hp
    obtain ⟨x, hx, -⟩ := Option.bind_eq_some_iff.mp hp
    exact getU_cons_some hx
  have h0 : ∀ (x y : NArr F []), Lifts [] (both [] x y) f (Except.ok <$> (show Out A from f x y)) := by
    intro x y
    refine lifts_scalar hf rfl fun ix p hp => ?_
    obtain ⟨x, hx, -⟩ := Option.bind_eq_some_iff.mp hp
    exact getU_nil_ix hx
  have hrow : ∀ {d ds} (a b : NArr F (d :: ds)) (i : Fin d),
      (fun jx => both (d :: ds) a b (i.val :: jx)) = both ds (a.row i) (b.row i) := by
    intro d ds a b i
    funext jx
    simp only [both, getU_row]
  induction ds with
  | nil => exact h0 a b
  | cons d ds ih =>
    match ds, ih with
    | [], _ =>
      refine lifts_rows _ (hc a b) fun i => ?_
      rw [hrow]
      exact h0 _ _
    | e :: ds, ih =>
      refine lifts_rows _ (hc a b) fun i => ?_
      rw [hrow]
      exact lifts_unwrap (ih _ _)

/-- An array and a scalar. -/
theorem C87_zip_field_r : ∀ (ds : Dims) (a : NArr F ds) (y : F) (f : F → F → Out A), (∀ x y, f x y ≠ .ub) →
    Lifts ds (fun ix => (getU ds a ix).map fun x => (x, y)) f (zipMapFieldRU ds a y f) := by
  intro ds a y f hf
  have hc : ∀ {d ds} (a : NArr F (d :: ds)) ix p, ((getU (d :: ds) a ix).map fun x => (x, y)) = some p →
      ∃ (i : Fin d) (jx : Idx), ix = i.val :: jx := by
    intro d ds a ix p hp
    obtain ⟨x, hx, -⟩ := Option.map_eq_some_iff.mp hp
    exact getU_cons_some hx
  have h0 : ∀ (x : NArr F []), Lifts [] (fun ix => (getU [] x ix).map fun x => (x, y)) f
      (Except.ok <$> (show Out A from f x y)) := by
    intro x
    refine lifts_scalar hf rfl fun ix p hp => ?_
    obtain ⟨x, hx, -⟩ := Option.map_eq_some_iff.mp hp
    exact getU_nil_ix hx
  induction ds with
  | nil => exact h0 a
  | cons d ds ih =>
    match ds, ih with
    | [], _ =>
      refine lifts_rows _ (hc a) fun i => ?_
      simp only [getU_row]
      exact h0 _
    | e :: ds, ih =>
      refine lifts_rows _ (hc a) fun i => ?_
      simp only [getU_row]
      exact lifts_unwrap (ih _)

/-- A scalar and an array. (In rank two and above the closure gets its arguments in the wrong order, C11.) -/
theorem C87_zip_field_l : ∀ (ds : Dims) (x : F) (b : NArr F ds) (f : F → F → Out A), (∀ x y, f x y ≠ .ub) →
    Lifts ds (fun ix => (getU ds b ix).map fun y => if ds.length ≤ 1 then (x, y) else (y, x)) f
      (zipMapFieldLU ds x b f) := by
  intro ds x b f hf
  have h0 : ∀ (y : NArr F []), Lifts [] (fun ix => (getU [] y ix).map fun y => (x, y)) f
      (Except.ok <$> (show Out A from f x y)) := by
    intro y
    refine lifts_scalar hf rfl fun ix p hp => ?_
    obtain ⟨x, hx, -⟩ := Option.map_eq_some_iff.mp hp
    exact getU_nil_ix hx
  have hc : ∀ {d ds} (b : NArr F (d :: ds)) (g : F → F × F) ix p, (getU (d :: ds) b ix).map g = some p →
      ∃ (i : Fin d) (jx : Idx), ix = i.val :: jx := by
    intro d ds a g ix p hp
    obtain ⟨x, hx, -⟩ := Option.map_eq_some_iff.mp hp
    exact getU_cons_some hx
  match ds, b with
  | [], b => exact h0 b
  | [d], b =>
    refine lifts_rows _ (hc b _) fun i => ?_
    simp only [getU_row]
    exact h0 _
  | d :: e :: ds, b =>
    refine lifts_rows _ (hc b _) fun i => ?_
    simp only [getU_row]
    have h : ¬ (d :: e :: ds).length ≤ 1 := by simp
    simp only [if_neg h]
    exact lifts_unwrap (C87_zip_field_r (e :: ds) (b.row i) x f hf)

/-! ### The rest of the model is right to ignore them -/

theorem arrayInit_ok {d : Nat} {ds : Dims} (g : Fin d → NArr A ds) :
    arrayInit (fun i => Out.ok (g i)) = .ok (mkRows g) := by
  rcases arrayInit_cases (fun i => Out.ok (g i)) (fun i => by simp) with ⟨-, i, hi⟩ | ⟨v, h1, h2⟩
  · cases hi
  · rw [h1]
    congr 1
    apply ext_rows
    intro i
    have := h2 i
    injection this with this
    rw [row_mkRows, this]

/-- For closures that do not panic, the functions with the `unsafe` blocks are the functions of the model. -/
theorem C87_zip_model (ds : Dims) (f : F → F → A) :
    (∀ a b : NArr F ds, zipMapSelfU ds a b (fun x y => .ok (f x y)) = .ok (.ok (zipMapSelf ds a b f))) ∧
    (∀ (a : NArr F ds) y, zipMapFieldRU ds a y (fun x y => .ok (f x y)) = .ok (.ok (zipMapFieldR ds a y f))) ∧
    (∀ x (b : NArr F ds), zipMapFieldLU ds x b (fun x y => .ok (f x y)) = .ok (.ok (zipMapFieldL ds x b f))) := by
  have hr : ∀ (ds : Dims) (a : NArr F ds) y,
      zipMapFieldRU ds a y (fun x y => .ok (f x y)) = .ok (.ok (zipMapFieldR ds a y f)) := by
    intro ds
    induction ds with
    | nil => intro a y; rfl
    | cons d ds ih =>
      intro a y
      match ds, ih with
      | [], _ => exact congrArg (Except.ok <$> ·) (arrayInit_ok (ds := []) fun i => f (a.row i) y)
      | e :: ds, ih =>
        rw [zipMapFieldRU]
        simp only [ih]
        exact congrArg (Except.ok <$> ·) (arrayInit_ok fun i => zipMapFieldR (e :: ds) (a.row i) y f)
  refine ⟨?_, hr ds, ?_⟩
  · induction ds with
    | nil => intro a b; rfl
    | cons d ds ih =>
      intro a b
      match ds, ih with
      | [], _ => exact congrArg (Except.ok <$> ·) (arrayInit_ok (ds := []) fun i => f (a.row i) (b.row i))
      | e :: ds, ih =>
        rw [zipMapSelfU]
        simp only [ih]
        exact congrArg (Except.ok <$> ·) (arrayInit_ok fun i => zipMapSelf (e :: ds) (a.row i) (b.row i) f)
  · intro x b
    match ds, b with
    | [], b => rfl
    | [d], b => exact congrArg (Except.ok <$> ·) (arrayInit_ok (ds := []) fun i => f x (b.row i))
    | d :: e :: ds, b =>
      rw [zipMapFieldLU]
      simp only [hr]
      exact congrArg (Except.ok <$> ·) (arrayInit_ok fun i => zipMapFieldR (e :: ds) (b.row i) x f)

/-! ### The raw read -/

/-- The read is defined exactly if the array read is no longer than the array there; it then has the elements of
that array, in order. -/
theorem C87_read {n : Nat} (m : Nat) (y : NArr F [n]) :
    (readAs m (Local.init y) = .ub ↔ n < m) ∧
    (∀ r, readAs m (Local.init y) = .ok r → ∀ (i : Fin m) (j : Fin n), i.val = j.val → r.elem i = y.elem j) := by
  have hl : (Local.init y).cells.length = n := by simp [Local.init]
  constructor
  · rw [readAs]
    split
    · constructor
      · intro h; cases h
      · intro h; omega
    · constructor
      · intro _; omega
      · intro _; rfl
  · intro r h i j hij
    rw [readAs] at h
    split at h
    · injection h with h
      subst h
      refine (NArr.row_mkRows (ds := []) _ i).trans ?_
      simp [Local.init, hij]
      rfl
    · cases h

/-- The elements owned when the block is left are those of the array that was there, each of them once: the result
owns them and nothing is dropped. -/
theorem C87_block {n m : Nat} (h : m = n) (y : NArr F [n]) :
    castBlock m y = .ok (h ▸ y, []) ∧
    ∀ r dropped, castBlock m y = .ok (r, dropped) → List.ofFn r.elem ++ dropped = List.ofFn y.elem := by
  subst h
  have e : castBlock m y = .ok (y, []) := by
    have hl : m ≤ (Local.init y).cells.length := by simp [Local.init]
    rw [castBlock, readAs]
    simp only [dif_pos hl]
    show Out.ok _ = _
    congr 2
    apply ext_rows
    intro i
    refine (NArr.row_mkRows (ds := []) _ i).trans ?_
    simp [Local.init, NArr.elem]
  refine ⟨e, fun r dropped h => ?_⟩
  rw [e] at h
  injection h with h
  injection h with h1 h2
  subst h1; subst h2
  simp

/-- `forget` is needed, for every array: had the block been left without it, every element would be owned by the
result and dropped as well. -/
theorem C87_forget {n : Nat} (y : NArr F [n]) : ∃ r, readAs n (Local.init y) = .ok r ∧
    List.ofFn r.elem = List.ofFn y.elem ∧ (Local.init y).dropped = List.ofFn y.elem := by
  have hl : n ≤ (Local.init y).cells.length := by simp [Local.init]
  refine ⟨_, by rw [readAs, dif_pos hl], ?_, rfl⟩
  congr 1
  funext i
  refine (NArr.row_mkRows (ds := []) _ i).trans ?_
  simp [Local.init]
  rfl

section
variable [Zero F] [Add F] [Mul F] [ScalarFns F]

/-- Every contraction of a matrix with a vector does what the model says, with no undefined behaviour and nothing
dropped twice. -/
theorem C87_contract_mv (n m : Nat) (x : BSpec F (.array [n, m])) (y : BSpec F (.array [n])) :
    contractMv n m x y = (fun r => (r, [])) <$> Out.ofRes (BSpec.contract (.mv n m) x y) := by
  unfold contractMv BSpec.contract
  cases x with
  | raw x => rfl
  | full s fx => dsimp only; split <;> rfl
  | diagonal s fx =>
    cases y with
    | full s fy => rfl
    | raw y =>
      dsimp only
      split
      · rw [(C87_block ‹_› _).1]; rfl
      · rfl
    | diagonal s' fy =>
      dsimp only
      split
      · rw [(C87_block ‹_› _).1]; rfl
      · rfl

/-- Every contraction of a vector with a matrix. -/
theorem C87_contract_vm (n m : Nat) (x : BSpec F (.array [n])) (y : BSpec F (.array [n, m])) :
    contractVm n m x y = (fun r => (r, [])) <$> Out.ofRes (BSpec.contract (.vm n m) x y) := by
  unfold contractVm BSpec.contract
  cases y with
  | raw y => cases x <;> rfl
  | full s fy => cases x <;> dsimp only <;> split <;> rfl
  | diagonal s fy =>
    cases x with
    | full s fy => rfl
    | raw y =>
      dsimp only
      split
      · rw [(C87_block ‹_› _).1]; rfl
      · rfl
    | diagonal s' fy =>
      dsimp only
      split
      · rw [(C87_block ‹_› _).1]; rfl
      · rfl

/-- In particular neither contraction is ever undefined. -/
theorem C87_contract_defined (n m : Nat) :
    (∀ x y, contractMv (F := F) n m x y ≠ .ub) ∧ ∀ x y, contractVm (F := F) n m x y ≠ .ub := by
  constructor
  · intro x y h
    rw [C87_contract_mv] at h
    cases hr : BSpec.contract (.mv n m) x y <;> rw [hr] at h <;> cases h
  · intro x y h
    rw [C87_contract_vm] at h
    cases hr : BSpec.contract (.vm n m) x y <;> rw [hr] at h <;> cases h

/-- What comes out of the two contractions, without mention of how the model embeds safe functions: the result,
the error or the panic of the model, and nothing is dropped. -/
theorem C87_contract_outcomes (n m : Nat) :
    (∀ x y, (∀ s l, contractMv (F := F) n m x y = .ok (.ok s, l) ↔ BSpec.contract (.mv n m) x y = .ok s ∧ l = []) ∧
      (∀ e l, contractMv (F := F) n m x y = .ok (.error e, l) ↔ BSpec.contract (.mv n m) x y = .err e ∧ l = []) ∧
      (contractMv (F := F) n m x y = .panic ↔ BSpec.contract (.mv n m) x y = .panic)) ∧
    ∀ x y, (∀ s l, contractVm (F := F) n m x y = .ok (.ok s, l) ↔ BSpec.contract (.vm n m) x y = .ok s ∧ l = []) ∧
      (∀ e l, contractVm (F := F) n m x y = .ok (.error e, l) ↔ BSpec.contract (.vm n m) x y = .err e ∧ l = []) ∧
      (contractVm (F := F) n m x y = .panic ↔ BSpec.contract (.vm n m) x y = .panic) := by
  have hok : ∀ {A : Type} (r : Except IncShapes A),
      (fun r => (r, ([] : List F))) <$> (Out.ok r) = Out.ok (r, []) := fun r => rfl
  have hp : ∀ {A : Type}, (fun r : Except IncShapes A => (r, ([] : List F))) <$> (Out.panic : Out (Except IncShapes A)) =
      Out.panic := rfl
  constructor <;> intro x y
  · rw [C87_contract_mv]
    cases hr : BSpec.contract (.mv n m) x y <;> simp [Out.ofRes, hok, hp, eq_comm]
  · rw [C87_contract_vm]
    cases hr : BSpec.contract (.vm n m) x y <;> simp [Out.ofRes, hok, hp, eq_comm]
end

/-! ### Concrete cases -/

/-- A closure that panics for a zero divisor. -/
def divide (x y : ℤ) : Out ℤ := if y = 0 then .panic else .ok (x / y)

/-- The hypothesis on closures. -/
theorem divide_defined (x y : ℤ) : divide x y ≠ .ub := by
  rw [divide]; split <;> simp

/-- A matrix of two rows. -/
def mat (a b c d : ℤ) : NArr ℤ [2, 2] :=
  mkRows (ds := [2]) fun i => NArr.ofElems fun j => if i = 0 then (if j = 0 then a else b) else if j = 0 then c else d

/-- A zero in the second row makes the whole panic; otherwise the quotients come out. -/
example : zipMapSelfU [2, 2] (mat 1 2 3 4) (mat 1 1 0 1) divide = .panic := by
  rcases C87_zip_self [2, 2] (mat 1 2 3 4) (mat 1 1 0 1) divide divide_defined with ⟨h, -⟩ | ⟨v, -, h⟩
  · exact h
  · obtain ⟨z, hz, -⟩ := h [1, 0] (3, 0) rfl
    cases hz

example : Lifts [2, 2] (both [2, 2] (mat 1 2 3 4) (mat 1 1 0 1)) divide
    (zipMapSelfU [2, 2] (mat 1 2 3 4) (mat 1 1 0 1) divide) := C87_zip_self _ _ _ _ divide_defined

/-- The guard `M == N` is needed: three elements cannot be read where there are two. -/
example : castBlock 3 (NArr.ofElems (fun _ : Fin 2 => (1 : ℤ))) = .ub := rfl

/-- And so is `forget`: without it both elements would be dropped, although the result owns them. -/
example : (Local.init (NArr.ofElems (fun _ : Fin 2 => (1 : ℤ)))).dropped = [1, 1] := rfl

/-- A rectangular diagonal does not take the unsafe arm, and the contraction panics (C15) rather than being
undefined. -/
example : contractMv 2 3 (BSpec.diagonal () (2 : ℤ)) (.raw (NArr.ofElems fun _ => 1)) = .panic := rfl

example : BSpec.contract (.mv 2 3) (BSpec.diagonal () (2 : ℤ)) (.raw (NArr.ofElems fun _ => 1)) = .panic :=
  ((C87_contract_outcomes 2 3).1 _ _).2.2.1 rfl

example : contractMv 2 2 (BSpec.diagonal () (2 : ℤ)) (.raw (NArr.ofElems fun i => if i = 0 then 3 else 5)) =
    .ok (.ok (.raw (NArr.ofElems fun i => if i = 0 then 6 else 10)), []) := by
  rw [C87_contract_mv]
  rfl

end Aegir.Props
