import Verif.Spec.DeriveOps
import Verif.Spec.Node
import Mathlib.Data.List.Forall2
import Mathlib.Data.List.Nodup
/-!
# C50: `#[derive(Contains)]`
-/

namespace Aegir

open DeriveOps

private theorem opFilter_iff (a : CtxParse.Attribute) :
    (a.path.getIdent.filter fun id => id == "op") = some "op" ∧ IsOp a ∨
      (a.path.getIdent.filter fun id => id == "op") = none ∧ ¬ IsOp a := by
  unfold IsOp
  match h : a.path with
  | ⟨false, [s]⟩ =>
    by_cases hs : s = "op"
    · subst hs; left; exact ⟨rfl, rfl⟩
    · right
      refine ⟨?_, fun hc => hs ?_⟩
      · simp [CtxParse.Path.getIdent, Option.filter, hs]
      · simpa using hc
  | ⟨true, ss⟩ => right; exact ⟨rfl, by simp⟩
  | ⟨false, []⟩ => right; exact ⟨rfl, by simp⟩
  | ⟨false, _ :: _ :: _⟩ => right; exact ⟨rfl, by simp⟩

private theorem filter_nil (as : List CtxParse.Attribute) :
    (as.filterMap fun a => a.path.getIdent.filter fun id => id == "op") = [] ↔
      ∀ b ∈ as, ¬ IsOp b := by
  rw [List.filterMap_eq_nil_iff]
  refine forall₂_congr fun a _ => ?_
  rcases opFilter_iff a with ⟨h, h'⟩ | ⟨h, h'⟩ <;> simp [h, h']

private theorem filter_one (as : List CtxParse.Attribute) :
    (as.filterMap fun a => a.path.getIdent.filter fun id => id == "op").length = 1 ↔
      ∃ l a r, as = l ++ a :: r ∧ IsOp a ∧ ∀ b ∈ l ++ r, ¬ IsOp b := by
  induction as with
  | nil => simp
  | cons a as ih =>
    rcases opFilter_iff a with ⟨h, h'⟩ | ⟨h, h'⟩
    · rw [List.filterMap_cons, h, List.length_cons, Nat.add_eq_right, List.length_eq_zero_iff,
        filter_nil]
      constructor
      · exact fun hn => ⟨[], a, as, rfl, h', hn⟩
      · rintro ⟨l, b, r, he, hb, hn⟩
        cases l with
        | nil => cases he; exact hn
        | cons c l => cases he; exact absurd h' (hn _ (by simp))
    · rw [List.filterMap_cons, h, ih]
      constructor
      · rintro ⟨l, b, r, rfl, hb, hn⟩
        exact ⟨a :: l, b, r, rfl, hb, fun c hc => by
          rcases List.mem_cons.1 hc with rfl | hc
          exacts [h', hn c hc]⟩
      · rintro ⟨l, b, r, he, hb, hn⟩
        cases l with
        | nil => cases he; exact absurd hb h'
        | cons c l => cases he; exact ⟨l, b, r, rfl, hb, fun c hc => hn c (by simp_all)⟩

private theorem opAttributes_iff (f : Field) :
    (opAttributes f = .ok () ∧ Marked f) ∨ (opAttributes f = .err .parseError ∧ ¬ Marked f) := by
  unfold opAttributes Marked
  rw [← filter_one]
  split
  · right; exact ⟨rfl, by assumption⟩
  · left; exact ⟨rfl, by simp_all⟩

/-- The accessors that the macro should use. -/
private def accs (acc : Nat → Field → Accessor) : Nat → List Field → List OpField
  | _, [] => []
  | i, f :: fs => ⟨f.ty, acc i f⟩ :: accs acc (i + 1) fs

private theorem collect_eq (acc : Nat → Field → Accessor) (fs : List Field) (i : Nat) :
    let k := fun i f => (opAttributes f).map fun _ => (⟨f.ty, acc i f⟩ : OpField)
    ((∀ f ∈ fs, Marked f) ∧ collect k i fs = .ok (accs acc i fs)) ∨
      ((¬ ∀ f ∈ fs, Marked f) ∧ collect k i fs = .err .parseError) := by
  intro k
  induction fs generalizing i with
  | nil => left; exact ⟨by simp, rfl⟩
  | cons f fs ih =>
    rcases opAttributes_iff f with ⟨h, hm⟩ | ⟨h, hm⟩
    · rcases ih (i + 1) with ⟨h1, h2⟩ | ⟨h1, h2⟩
      · left
        refine ⟨List.forall_mem_cons.2 ⟨hm, h1⟩, ?_⟩
        have hk : k i f = .ok ⟨f.ty, acc i f⟩ := by simp only [k, h, Res.map]
        rw [collect, hk, h2]
        rfl
      · right
        refine ⟨fun hh => h1 (List.forall_mem_cons.1 hh).2, ?_⟩
        have hk : k i f = .ok ⟨f.ty, acc i f⟩ := by simp only [k, h, Res.map]
        rw [collect, hk, h2]
        rfl
    · right
      exact ⟨by simp [hm], by simp [collect, k, h, Res.map, Res.bind]⟩

/-- The accessor for the field, by kind of struct. -/
private def accOf : Data → Nat → Field → Accessor
  | .named _, _, f => .name f.name
  | _, i, _ => .index i

private theorem expand_eq (ast : Input) :
    (((∃ fs, ast.data = .named fs ∨ ast.data = .unnamed fs) ∧ ∀ f ∈ ast.data.fields, Marked f) ∧
      expandContains ast = .ok ⟨ast.params ++ ["I"],
        (accs (accOf ast.data) 0 ast.data.fields).map (·.ty), (ast.name, ast.params),
        (accs (accOf ast.data) 0 ast.data.fields).map (·.accessor)⟩) ∨
    ¬ ((∃ fs, ast.data = .named fs ∨ ast.data = .unnamed fs) ∧ ∀ f ∈ ast.data.fields, Marked f) ∧
      expandContains ast = .panic := by
  obtain ⟨name, params, data⟩ := ast
  cases data with
  | named fs =>
    rcases collect_eq (accOf (.named fs)) fs 0 with ⟨h1, h2⟩ | ⟨h1, h2⟩
    · left
      refine ⟨⟨⟨fs, .inl rfl⟩, h1⟩, ?_⟩
      rw [show expandContains ⟨name, params, .named fs⟩ =
        (parseNamed fs).unwrap.map _ from rfl, show parseNamed fs = _ from h2]
      rfl
    · right
      refine ⟨fun h => h1 h.2, ?_⟩
      rw [show expandContains ⟨name, params, .named fs⟩ =
        (parseNamed fs).unwrap.map _ from rfl, show parseNamed fs = _ from h2]
      rfl
  | unnamed fs =>
    rcases collect_eq (accOf (.unnamed fs)) fs 0 with ⟨h1, h2⟩ | ⟨h1, h2⟩
    · left
      refine ⟨⟨⟨fs, .inr rfl⟩, h1⟩, ?_⟩
      rw [show expandContains ⟨name, params, .unnamed fs⟩ =
        (parseUnnamed fs).unwrap.map _ from rfl, show parseUnnamed fs = _ from h2]
      rfl
    · right
      refine ⟨fun h => h1 h.2, ?_⟩
      rw [show expandContains ⟨name, params, .unnamed fs⟩ =
        (parseUnnamed fs).unwrap.map _ from rfl, show parseUnnamed fs = _ from h2]
      rfl
  | unit => right; exact ⟨by simp, rfl⟩
  | other => right; exact ⟨by simp, rfl⟩

/-- The macro succeeds exactly for structs with (possibly zero) fields in braces or parentheses that
all carry `#[op]` exactly once; otherwise it panics. -/
theorem C50_expands_iff (ast : Input) :
    ((∃ i, expandContains ast = .ok i) ↔
      (∃ fs, ast.data = .named fs ∨ ast.data = .unnamed fs) ∧ ∀ f ∈ ast.data.fields, Marked f) ∧
    ((¬ ∃ i, expandContains ast = .ok i) → expandContains ast = .panic) := by
  rcases expand_eq ast with ⟨h, he⟩ | ⟨h, he⟩
  · exact ⟨⟨fun _ => h, fun _ => ⟨_, he⟩⟩, fun hn => absurd ⟨_, he⟩ hn⟩
  · refine ⟨⟨?_, fun hh => absurd hh h⟩, fun _ => he⟩
    rintro ⟨i, hi⟩
    rw [he] at hi
    cases hi

private theorem accs_ty (acc : Nat → Field → Accessor) (i : Nat) (fs : List Field) :
    (accs acc i fs).map (·.ty) = fs.map (·.ty) := by
  induction fs generalizing i with
  | nil => rfl
  | cons f fs ih => simp [accs, ih]

/-- The impl is for the struct with its own parameters, needs `Contains<I>` for the type of every
field, and has one more parameter, `I`. -/
theorem C50_header (ast : Input) (i : Impl) (h : expandContains ast = .ok i) :
    i.self = (ast.name, ast.params) ∧ i.bounds = ast.data.fields.map (·.ty) ∧
      ∀ p, p ∈ i.params ↔ p ∈ ast.params ∨ p = "I" := by
  rcases expand_eq ast with ⟨_, he⟩ | ⟨_, he⟩
  · rw [he] at h
    cases h
    exact ⟨rfl, accs_ty _ _ _, by simp⟩
  · rw [he] at h; cases h

/-- The parameters of the impl are distinct exactly if those of the struct are, and none of them is
called `I`. -/
theorem C50_params (ast : Input) (i : Impl) (h : expandContains ast = .ok i) :
    i.params.Nodup ↔ ast.params.Nodup ∧ "I" ∉ ast.params := by
  rcases expand_eq ast with ⟨_, he⟩ | ⟨_, he⟩
  · rw [he] at h
    cases h
    rw [List.nodup_append]
    simp only [List.nodup_cons, List.not_mem_nil, not_false_eq_true, List.nodup_nil, true_and,
      List.mem_singleton, forall_eq]
    exact and_congr_right fun _ => ⟨fun h hc => h _ hc rfl, fun h a ha hc => h (hc ▸ ha)⟩
  · rw [he] at h; cases h

private theorem accs_selects_named (all fs : List Field) (i : Nat) (hd : all.drop i = fs)
    (hn : ∀ f ∈ fs, f.name ≠ none) :
    List.Forall₂ (Selects (.named all)) ((accs (accOf (.named all)) i fs).map (·.accessor))
      (List.range' i fs.length) := by
  induction fs generalizing i with
  | nil => exact .nil
  | cons f fs ih =>
    obtain ⟨s, hs⟩ := Option.ne_none_iff_exists'.1 (hn f (by simp))
    have h0 : all[i]? = some f := by
      have := congrArg (·[0]?) hd
      simpa using this
    refine .cons ?_ (ih (i + 1) ?_ fun g hg => hn g (by simp [hg]))
    · simp only [accOf, hs, Selects]
      exact ⟨f, h0, hs⟩
    · rw [← List.drop_drop, hd]; rfl

private theorem accs_selects_unnamed (all fs : List Field) (i : Nat)
    (hl : i + fs.length = all.length) :
    List.Forall₂ (Selects (.unnamed all)) ((accs (accOf (.unnamed all)) i fs).map (·.accessor))
      (List.range' i fs.length) := by
  induction fs generalizing i with
  | nil => exact .nil
  | cons f fs ih =>
    refine .cons ⟨rfl, ?_⟩ (ih (i + 1) ?_)
    · simp at hl; omega
    · simp at hl; omega

private theorem selects_unique {d : Data} (hv : d.Valid) {a : Accessor} {k k' : Nat}
    (h : Selects d a k) (h' : Selects d a k') : k = k' := by
  cases d with
  | named fs =>
    cases a with
    | name s =>
      cases s with
      | none => exact h.elim
      | some s =>
        obtain ⟨f, hf, hs⟩ := h
        obtain ⟨g, hg, hs'⟩ := h'
        have hn := hv.2
        obtain ⟨hk, rfl⟩ := List.getElem?_eq_some_iff.1 hf
        obtain ⟨hk', rfl⟩ := List.getElem?_eq_some_iff.1 hg
        have := (List.Nodup.getElem_inj_iff hn (i := k) (j := k') (hi := by simpa using hk)
          (hj := by simpa using hk')).1 (by simp [hs, hs'])
        exact this
    | index => exact h.elim
  | unnamed fs =>
    cases a with
    | name s => exact h.elim
    | index i => exact h.1.symm.trans h'.1
  | unit => cases a <;> exact h.elim
  | other => cases a <;> exact h.elim

private theorem disjunction_eq (l : List Bool) (h : l ≠ []) : disjunction l = some (l.any id) := by
  induction l with
  | nil => exact absurd rfl h
  | cons a l ih =>
    cases l with
    | nil => simp [disjunction]
    | cons b l =>
      rw [disjunction, ih (by simp)]
      cases a <;> simp

/-- The generated `contains` asks every field once, from first to last, and answers whether one of
them contains the target: `child k` is the answer of the field at position `k`. Missing: structs
without fields, for which the generated function has no body. -/
theorem C50_contains_partial (ast : Input) (i : Impl) (h : expandContains ast = .ok i)
    (hv : ast.data.Valid) (hne : ast.data.fields ≠ []) (child : Nat → Bool) :
    ∃ ks, List.Forall₂ (Selects ast.data) i.predicate ks ∧
      (∀ ks', List.Forall₂ (Selects ast.data) i.predicate ks' → ks' = ks) ∧
      ks = List.range ast.data.fields.length ∧
      ∃ b, disjunction (ks.map child) = some b ∧
        (b = true ↔ ∃ k < ast.data.fields.length, child k = true) := by
  rcases expand_eq ast with ⟨⟨hs, _⟩, he⟩ | ⟨_, he⟩
  · rw [he] at h
    cases h
    have hsel : List.Forall₂ (Selects ast.data)
        ((accs (accOf ast.data) 0 ast.data.fields).map (·.accessor))
        (List.range ast.data.fields.length) := by
      rw [List.range_eq_range']
      obtain ⟨fs, hd | hd⟩ := hs
      · rw [hd] at hv ⊢
        exact accs_selects_named fs fs 0 rfl hv.1
      · rw [hd]
        exact accs_selects_unnamed fs fs 0 (by simp)
    refine ⟨_, hsel, fun ks' h' => ?_, rfl, _, disjunction_eq _ ?_, ?_⟩
    · clear he hne
      generalize (accs (accOf ast.data) 0 ast.data.fields).map (·.accessor) = as at hsel h'
      generalize List.range ast.data.fields.length = ks at hsel
      induction hsel generalizing ks' with
      | nil => cases h'; rfl
      | cons h1 _ ih =>
        cases h' with
        | cons h2 h3 => rw [selects_unique hv h1 h2, ih _ h3]
    · simpa using hne
    · simp
  · rw [he] at h; cases h

/-- The `contains` of the operators is that disjunction over their operands. -/
theorem C50_nodes {F : Type} (e : Node F) (x : Id) (he : Spec.children e ≠ [])
    (hc : ∀ n i, e ≠ .cached n i) (ha : ∀ n t, e ≠ .constAdj n t) :
    disjunction ((Spec.children e).map (·.contains x)) = some (e.contains x) := by
  rw [disjunction_eq _ (by simpa using he)]
  cases e <;> first
    | (exfalso; exact he rfl)
    | (exfalso; exact hc _ _ rfl)
    | (exfalso; exact ha _ _ rfl)
    | simp [Spec.children, Node.contains]

/-- `struct Add<L, R>(#[op] pub L, #[op] pub R)`. -/
private def addInput : Input :=
  let op : CtxParse.Attribute := ⟨⟨false, ["op"]⟩, some (.path ⟨false, ["op"]⟩)⟩
  ⟨"Add", ["L", "R"], .unnamed [⟨none, [op], .path false false [.mk "L" .none]⟩,
    ⟨none, [op], .path false false [.mk "R" .none]⟩]⟩

example : ∃ i, expandContains addInput = .ok i ∧ addInput.data.Valid ∧ addInput.data.fields ≠ [] ∧
    i.predicate = [.index 0, .index 1] ∧ i.params = ["L", "R", "I"] ∧
    disjunction [false, true] = some true :=
  ⟨_, rfl, trivial, by simp [addInput, Data.fields], rfl, rfl, rfl⟩

/-- A struct with a field that is no successor, such as an identifier, is rejected: fields without
`#[op]` are not skipped. -/
theorem C50_violation_unmarked (name : String) (params : List String) (pre post : List Field)
    (f : Field) (hf : f.attrs = []) :
    expandContains ⟨name, params, .named (pre ++ f :: post)⟩ = .panic ∧
      expandContains ⟨name, params, .unnamed (pre ++ f :: post)⟩ = .panic := by
  have hm : ¬ Marked f := by
    rintro ⟨l, a, r, h, _⟩
    rw [hf] at h
    simp at h
  constructor <;>
  · refine (C50_expands_iff _).2 fun h => hm ?_
    exact ((C50_expands_iff _).1.1 h).2 f (by simp [Data.fields])

/-- A struct without fields is accepted, but the generated function has no value. -/
theorem C50_violation_empty (name : String) (params : List String) (child : Nat → Bool) :
    ∃ i, expandContains ⟨name, params, .named []⟩ = .ok i ∧
      ∀ ks, List.Forall₂ (Selects (.named [])) i.predicate ks → disjunction (ks.map child) = none := by
  refine ⟨_, rfl, fun ks h => ?_⟩
  cases h
  rfl

/-- A struct with a parameter called `I` is accepted, but the impl declares `I` twice. -/
theorem C50_violation_param (ast : Input) (i : Impl) (h : expandContains ast = .ok i)
    (hI : "I" ∈ ast.params) : ¬ i.params.Nodup := fun hn =>
  ((C50_params ast i h).1 hn).2 hI

end Aegir
