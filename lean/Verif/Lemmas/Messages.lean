import Verif.Model.Messages
import Verif.Spec.Messages
import Verif.Lemmas.Total
import Mathlib.Data.List.Basic
import Std.Data.String.ToNat
/-!
# Error messages
-/

namespace Aegir

open Spec

/-! ### Texts -/

theorem toString_nat_toList (d : Nat) : (toString d).toList = Nat.toDigits 10 d := by
  simp

theorem isDigit_toString (d : Nat) : ∀ c ∈ (toString d).toList, c.isDigit = true := by
  intro c hc
  rw [toString_nat_toList] at hc
  exact Nat.isDigit_of_mem_toDigits (by omega) (by omega) hc

theorem toString_nat_inj {d e : Nat} (h : (toString d).toList = (toString e).toList) : d = e :=
  Nat.repr_injective (String.toList_inj.1 h)

theorem toString_nat_ne_nil (d : Nat) : (toString d).toList ≠ [] := by
  rw [toString_nat_toList]
  exact Nat.toDigits_ne_nil

/-- Two texts that start with decimals followed by something else agree in both parts. -/
theorem digits_split {u v s t : List Char} (hu : ∀ c ∈ u, c.isDigit = true)
    (hv : ∀ c ∈ v, c.isDigit = true) (hs : ∀ c, s.head? = some c → c.isDigit = false)
    (ht : ∀ c, t.head? = some c → c.isDigit = false) (h : u ++ s = v ++ t) : u = v ∧ s = t := by
  induction u generalizing v with
  | nil =>
    cases v with
    | nil => exact ⟨rfl, h⟩
    | cons b v =>
      have h1 := hs b (by simp at h; simp [h])
      rw [hv b (List.mem_cons_self ..)] at h1
      cases h1
  | cons a u ih =>
    cases v with
    | nil =>
      have h1 := ht a (by simp at h; simp [← h])
      rw [hu a (List.mem_cons_self ..)] at h1
      cases h1
    | cons b v =>
      simp only [List.cons_append, List.cons.injEq] at h
      obtain ⟨rfl, h⟩ := h
      obtain ⟨rfl, rfl⟩ := ih (fun c hc => hu c (List.mem_cons_of_mem _ hc))
        (fun c hc => hv c (List.mem_cons_of_mem _ hc)) h
      exact ⟨rfl, rfl⟩

/-- Texts with a mark that occurs only once. -/
theorem mark_split {m : Char} {u v s t : List Char} (hu : m ∉ u) (hv : m ∉ v)
    (h : u ++ m :: s = v ++ m :: t) : u = v ∧ s = t := by
  induction u generalizing v with
  | nil =>
    cases v with
    | nil => simpa using h
    | cons b v =>
      simp only [List.nil_append, List.cons_append, List.cons.injEq] at h
      exact absurd (h.1 ▸ List.mem_cons_self ..) hv
  | cons a u ih =>
    cases v with
    | nil =>
      simp only [List.nil_append, List.cons_append, List.cons.injEq] at h
      exact absurd (h.1 ▸ List.mem_cons_self ..) hu
    | cons b v =>
      simp only [List.cons_append, List.cons.injEq] at h
      obtain ⟨rfl, h⟩ := h
      obtain ⟨rfl, rfl⟩ := ih (fun hc => hu (List.mem_cons_of_mem _ hc))
        (fun hc => hv (List.mem_cons_of_mem _ hc)) h
      exact ⟨rfl, rfl⟩

theorem extents_inj {sep : String} {s : Char} {ss : List Char} (hsep : sep.toList = s :: ss)
    (hd : s.isDigit = false) {d e : Nat} {ds es : Dims}
    (h : (extents sep d ds).toList = (extents sep e es).toList) : d = e ∧ ds = es := by
  have step : ∀ (x : Nat) (xs : Dims), ∃ t : List Char,
      (extents sep x xs).toList = (toString x).toList ++ t ∧
      (∀ c, t.head? = some c → c.isDigit = false) ∧
      ((xs = [] ∧ t = []) ∨ ∃ y ys, xs = y :: ys ∧ t = s :: (ss ++ (extents sep y ys).toList)) := by
    intro x xs
    cases xs with
    | nil => exact ⟨[], by simp [extents], by simp, .inl ⟨rfl, rfl⟩⟩
    | cons y ys =>
      refine ⟨s :: (ss ++ (extents sep y ys).toList), ?_, ?_, .inr ⟨y, ys, rfl, rfl⟩⟩
      · simp [extents, hsep]
      · intro c hc
        simp only [List.head?_cons, Option.some.injEq] at hc
        exact hc ▸ hd
  induction ds generalizing d e es with
  | nil =>
    obtain ⟨t, h1, h2, h3⟩ := step d []
    obtain ⟨u, g1, g2, g3⟩ := step e es
    rw [h1, g1] at h
    obtain ⟨h4, rfl⟩ := digits_split (isDigit_toString d) (isDigit_toString e) h2 g2 h
    refine ⟨toString_nat_inj h4, ?_⟩
    rcases h3 with ⟨_, rfl⟩ | ⟨y, ys, h3, _⟩
    · rcases g3 with ⟨g3, _⟩ | ⟨y, ys, _, g3⟩
      · exact g3.symm
      · cases g3
    · cases h3
  | cons x xs ih =>
    obtain ⟨t, h1, h2, h3⟩ := step d (x :: xs)
    obtain ⟨u, g1, g2, g3⟩ := step e es
    rw [h1, g1] at h
    obtain ⟨h4, rfl⟩ := digits_split (isDigit_toString d) (isDigit_toString e) h2 g2 h
    refine ⟨toString_nat_inj h4, ?_⟩
    rcases h3 with ⟨h3, _⟩ | ⟨y, ys, h3, rfl⟩
    · cases h3
    · cases h3
      rcases g3 with ⟨_, g3⟩ | ⟨z, zs, rfl, g3⟩
      · cases g3
      · simp only [List.cons.injEq, true_and, List.append_cancel_left_eq] at g3
        obtain ⟨rfl, rfl⟩ := ih g3
        rfl

theorem extents_head (sep : String) (d : Nat) (ds : Dims) :
    ∃ c t, (extents sep d ds).toList = c :: t ∧ c.isDigit = true := by
  have h1 := toString_nat_ne_nil d
  have h2 := isDigit_toString d
  obtain ⟨c, t, ht⟩ := List.exists_cons_of_ne_nil h1
  cases ds with
  | nil => exact ⟨c, t, by simp only [extents]; exact ht, h2 c (by rw [ht]; exact List.mem_cons_self ..)⟩
  | cons e es =>
    refine ⟨c, t ++ (sep ++ extents sep e es).toList, ?_, h2 c (by rw [ht]; exact List.mem_cons_self ..)⟩
    simp only [extents, String.toList_append] at ht ⊢
    rw [ht, List.cons_append]

theorem extents_notMem (sep : String) (m : Char) (hm : m.isDigit = false) (hs : m ∉ sep.toList)
    (d : Nat) (ds : Dims) : m ∉ (extents sep d ds).toList := by
  have hd : ∀ d : Nat, m ∉ (toString d).toList := fun d h => by
    rw [isDigit_toString d m h] at hm; cases hm
  induction ds generalizing d with
  | nil => exact hd d
  | cons e es ih =>
    simp only [extents, String.toList_append, List.mem_append, not_or]
    exact ⟨hd d, hs, ih e⟩

theorem debugArray_inj {ds es : Dims} (h : (debugArray ds).toList = (debugArray es).toList) :
    ds = es := by
  cases ds with
  | nil =>
    cases es with
    | nil => rfl
    | cons e es =>
      obtain ⟨c, t, ht, hc⟩ := extents_head ", " e es
      simp only [debugArray, String.toList_append, ht] at h
      rw [show "[]".toList = '[' :: [']'] from rfl, show "[".toList = ['['] from rfl] at h
      have : ']' = c := (List.cons.inj (List.cons.inj h).2).1
      subst this; exact absurd hc (by decide)
  | cons d ds =>
    cases es with
    | nil =>
      obtain ⟨c, t, ht, hc⟩ := extents_head ", " d ds
      simp only [debugArray, String.toList_append, ht] at h
      rw [show "[]".toList = '[' :: [']'] from rfl, show "[".toList = ['['] from rfl] at h
      have : c = ']' := (List.cons.inj (List.cons.inj h).2).1
      subst this; exact absurd hc (by decide)
    | cons e es =>
      simp only [debugArray, String.toList_append, List.append_assoc,
        List.append_cancel_left_eq, List.append_cancel_right_eq] at h
      obtain ⟨rfl, rfl⟩ := extents_inj (sep := ", ") (s := ',') (ss := [' ']) rfl rfl h
      rfl

theorem dyn_toList (ds : Dims) : (ShapeV.dyn ds).display.toList =
    'S' :: 'D' :: ("ynamic(".toList ++ ((debugArray ds).toList ++ [')'])) := by
  simp [ShapeV.display]

theorem display_inj {s t : ShapeV} (h : s.display.toList = t.display.toList) : s = t := by
  have fd : ∀ d ds es, (ShapeV.fixed (d :: ds)).display.toList ≠ (ShapeV.dyn es).display.toList := by
    intro d ds es h
    obtain ⟨c, t, ht, hc⟩ := extents_head " × " d ds
    rw [dyn_toList] at h
    have : c = 'S' := (List.cons.inj (ht.symm.trans h)).1
    subst this; exact absurd hc (by decide)
  have f0 : ∀ d ds, (ShapeV.fixed (d :: ds)).display.toList ≠ (ShapeV.fixed []).display.toList := by
    intro d ds h
    obtain ⟨c, t, ht, hc⟩ := extents_head " × " d ds
    have : c = 'S' := (List.cons.inj (ht.symm.trans h)).1
    subst this; exact absurd hc (by decide)
  have d0 : ∀ es, (ShapeV.fixed []).display.toList ≠ (ShapeV.dyn es).display.toList := by
    intro es h
    rw [dyn_toList] at h
    have : '0' = 'D' := (List.cons.inj (List.cons.inj h).2).1
    exact absurd this (by decide)
  cases s with
  | fixed ds =>
    cases t with
    | fixed es =>
      cases ds with
      | nil =>
        cases es with
        | nil => rfl
        | cons e es => exact absurd h.symm (f0 _ _)
      | cons d ds =>
        cases es with
        | nil => exact absurd h (f0 _ _)
        | cons e es =>
          obtain ⟨rfl, rfl⟩ := extents_inj (sep := " × ") (s := ' ') (ss := ['×', ' ']) rfl rfl h
          rfl
    | dyn es =>
      cases ds with
      | nil => exact absurd h (d0 _)
      | cons d ds => exact absurd h (fd _ _ _)
  | dyn ds =>
    cases t with
    | fixed es =>
      cases es with
      | nil => exact absurd h.symm (d0 _)
      | cons e es => exact absurd h.symm (fd _ _ _)
    | dyn es =>
      rw [dyn_toList, dyn_toList] at h
      have h := List.append_cancel_left (List.cons.inj (List.cons.inj h).2).2
      rw [debugArray_inj (List.append_cancel_right h)]

theorem display_no_v (s : ShapeV) : 'v' ∉ s.display.toList := by
  match s with
  | .fixed [] => decide
  | .fixed (d :: ds) => exact extents_notMem _ _ rfl (by decide) d ds
  | .dyn ds =>
    have h : 'v' ∉ (debugArray ds).toList := by
      cases ds with
      | nil => decide
      | cons d ds =>
        simp only [debugArray, String.toList_append, List.mem_append, not_or]
        exact ⟨⟨by decide, extents_notMem _ _ rfl (by decide) d ds⟩, by decide⟩
    rw [dyn_toList]
    simp only [List.mem_cons, List.mem_append, not_or, List.not_mem_nil, not_false_eq_true, and_true]
    exact ⟨by decide, by decide, by decide, h, by decide⟩

theorem wrap_inj {p q a b : String} (h : p ++ a ++ q = p ++ b ++ q) : a = b := by
  have h := congrArg String.toList h
  rw [String.toList_append, String.toList_append, String.toList_append, String.toList_append] at h
  exact String.toList_inj.1 (List.append_cancel_left (List.append_cancel_right h))

theorem vs_inj {p q a b a' b' : String} (ha : 'v' ∉ a.toList) (ha' : 'v' ∉ a'.toList)
    (h : p ++ a ++ " vs " ++ b ++ q = p ++ a' ++ " vs " ++ b' ++ q) : a = a' ∧ b = b' := by
  have e : " vs ".toList = [' '] ++ 'v' :: ['s', ' '] := rfl
  have h := congrArg String.toList h
  simp only [String.toList_append, e, List.append_assoc, List.cons_append, List.nil_append] at h
  have h := List.append_cancel_left h
  have h' : (a.toList ++ [' ']) ++ 'v' :: ('s' :: ' ' :: (b.toList ++ q.toList)) =
      (a'.toList ++ [' ']) ++ 'v' :: ('s' :: ' ' :: (b'.toList ++ q.toList)) := by
    simp only [List.append_assoc, List.cons_append, List.nil_append]; exact h
  have nv : ∀ l : List Char, 'v' ∉ l → 'v' ∉ l ++ [' '] := fun l hl => by
    simp only [List.mem_append, not_or]; exact ⟨hl, by decide⟩
  obtain ⟨h1, h2⟩ := mark_split (nv _ ha) (nv _ ha') h'
  exact ⟨String.toList_inj.1 (List.append_cancel_right h1),
    String.toList_inj.1 (List.append_cancel_right (List.cons.inj (List.cons.inj h2).2).2)⟩

theorem head_ne {p p' a b : String} {c c' : Char} {t t' : List Char} (hp : p.toList = c :: t)
    (hp' : p'.toList = c' :: t') (hc : c ≠ c') : p ++ a ≠ p' ++ b := by
  intro h
  have h := congrArg String.toList h
  rw [String.toList_append, String.toList_append, hp, hp'] at h
  exact hc (List.cons.inj h).1

theorem incText_inj {l r l' r' : ShapeV} (h : incText l r = incText l' r') : l = l' ∧ r = r' := by
  obtain ⟨h1, h2⟩ := vs_inj (display_no_v l) (display_no_v l') h
  exact ⟨display_inj (congrArg _ h1), display_inj (congrArg _ h2)⟩

theorem sourceText_inj {dbg : Id → String} (hd : Function.Injective dbg) {i j : Id}
    (h : sourceText dbg i = sourceText dbg j) : i = j := hd (wrap_inj h)

theorem sourceText_ne_incText (dbg : Id → String) (i : Id) (l r : ShapeV) :
    sourceText dbg i ≠ incText l r := by
  unfold sourceText incText
  rw [String.append_assoc, String.append_assoc, String.append_assoc, String.append_assoc]
  exact head_ne (c := 'N') (c' := 'B') (t := "o variable found with identifier ".toList)
    (t' := "uffer shapes are incompatible: ".toList) rfl rfl (by decide)

/-! ### Causes -/

/-- The text of a cause. -/
def causeText (dbg : Id → String) : Cause → String
  | .missing i => sourceText dbg i
  | .clash l r => incText (.dyn l) (.dyn r)

theorem causeText_inj {dbg : Id → String} (hd : Function.Injective dbg) {j k : Cause}
    (h : causeText dbg j = causeText dbg k) : j = k := by
  cases j with
  | missing i =>
    cases k with
    | missing i' => rw [sourceText_inj hd h]
    | clash l r => exact absurd h (sourceText_ne_incText _ _ _ _)
  | clash l r =>
    cases k with
    | missing i' => exact absurd h.symm (sourceText_ne_incText _ _ _ _)
    | clash l' r' =>
      obtain ⟨h1, h2⟩ := incText_inj h
      cases h1; cases h2; rfl

theorem display_of_cause {dbg : Id → String} {g : EvalErr} {k : Cause} (h : CausedBy g k) :
    g.display dbg = causeText dbg k := by
  induction h with
  | undefined i => rfl
  | output s => rfl
  | left _ ih => exact ih
  | right _ ih => exact ih

theorem cause_exists (g : EvalErr) : ∃ k, CausedBy g k := by
  induction g with
  | undefined i => exact ⟨_, .undefined i⟩
  | output s => exact ⟨_, .output s⟩
  | left g ih => exact ih.imp fun _ h => .left h
  | right g ih => exact ih.imp fun _ h => .right h

theorem Spec.CausedBy.unique {g : EvalErr} {j k : Cause} (hj : CausedBy g j) (hk : CausedBy g k) :
    j = k := by
  induction hj with
  | undefined i => cases hk; rfl
  | output s => cases hk; rfl
  | left _ ih => cases hk with | left h => exact ih h
  | right _ ih => cases hk with | right h => exact ih h

theorem glue {p d o c r v q n m x y z : String} (hx : x = p ++ d ++ o)
    (hy : y = c ++ r ++ v ++ d ++ o) (hz : z = c ++ r ++ q) :
    p ++ (d ++ (o ++ n ++ c) ++ r) ++ v ++ (d ++ (o ++ m ++ c) ++ r) ++ q =
      x ++ n ++ y ++ m ++ z := by
  subst hx hy hz
  simp only [String.append_assoc]

theorem clash_text (n m : Nat) : incText (.dyn [n]) (.dyn [m]) =
    "Buffer shapes are incompatible: SDynamic([" ++ toString n ++ "]) vs SDynamic([" ++ toString m ++
      "])." :=
  glue (p := "Buffer shapes are incompatible: ") (d := "SDynamic(") (o := "[") (c := "]") (r := ")")
    (v := " vs ") (q := ".") (by decide) (by decide) (by decide)

variable {F : Type} {Γ : Id → BTy}

theorem Spec.ErrorAt.subExpr {e s : Node F} {g f : EvalErr} (h : ErrorAt e g s f) : SubExpr s e := by
  induction h with
  | here e f => exact .refl _
  | left hc _ ih => exact .step (by rw [hc]; simp) ih
  | right hc _ ih => exact .step (by rw [hc]; simp) ih
  | cached _ ih => exact .step (by simp [children]) ih
  | sum _ ih => exact .step (by simp [children]) ih
  | un _ ih => exact .step (by simp [children]) ih
  | constAdj _ ih => exact .step (by simp [children]) ih

theorem Spec.ErrorAt.cause {e s : Node F} {g f : EvalErr} (h : ErrorAt e g s f) {k : Cause}
    (hk : CausedBy f k) : CausedBy g k := by
  induction h with
  | here e f => exact hk
  | left _ _ ih => exact .left (ih hk)
  | right _ _ ih => exact .right (ih hk)
  | cached _ ih => exact ih hk
  | sum _ ih => exact ih hk
  | un _ ih => exact ih hk
  | constAdj _ ih => exact .left (ih hk)

theorem Spec.NeedsId.subExpr {e s : Node F} {i : Id} (h : NeedsId s i) (hs : SubExpr s e) :
    NeedsId e i := by
  induction hs with
  | refl => exact h
  | step hc _ ih => exact ih.child hc

theorem Spec.FirstMissing.unique {c : Ctx F Γ} {ids : List Id} {i j : Id}
    (hi : FirstMissing c ids i) (hj : FirstMissing c ids j) : i = j := by
  obtain ⟨u, w, rfl, h1, h2⟩ := hi
  obtain ⟨u', w', h, h3, h4⟩ := hj
  induction u generalizing u' with
  | nil =>
    cases u' with
    | nil => exact (List.cons.inj h).1
    | cons b u' => exact absurd ((List.cons.inj h).1 ▸ h1) (h4 b (List.mem_cons_self ..))
  | cons a u ih =>
    cases u' with
    | nil => exact absurd ((List.cons.inj h).1 ▸ h3) (h2 a (List.mem_cons_self ..))
    | cons b u' =>
      exact ih (fun k hk => h2 k (List.mem_cons_of_mem _ hk)) u' (List.cons.inj h).2
        (fun k hk => h4 k (List.mem_cons_of_mem _ hk))

theorem reads_needs (b : Bool) (e : Node F) (i : Id) (h : i ∈ reads b e) : NeedsId e i := by
  have two : ∀ {e l r : Node F}, children e = [l, r] → ∀ {u w : List Id}, i ∈ u ++ w →
      (i ∈ u → NeedsId l i) → (i ∈ w → NeedsId r i) → NeedsId e i := by
    intro e l r hc u w h hl hr
    rcases List.mem_append.1 h with h | h
    · exact (hl h).child (by rw [hc]; simp)
    · exact (hr h).child (by rw [hc]; simp)
  induction e generalizing b with
  | var j => rw [reads, List.mem_singleton] at h; exact h ▸ .inl (.refl _)
  | varAdj j t =>
    rw [reads, List.mem_cons, List.mem_singleton] at h
    rcases h with rfl | rfl
    · exact .inr (.inl ⟨_, .refl _⟩)
    · exact .inr (.inr (.inl ⟨_, .refl _⟩))
  | const | constSpec => rw [reads] at h; cases h
  | constAdj n t ih =>
    rw [reads, List.mem_append, List.mem_singleton] at h
    rcases h with h | rfl
    · exact (ih _ h).child (by simp [children])
    · exact .inr (.inr (.inr ⟨_, .refl _⟩))
  | cached n j ih => rw [reads] at h; exact (ih _ h).child (by simp [children])
  | add l r ihl ihr | sub l r ihl ihr | mul l r ihl ihr | div l r ihl ihr =>
    rw [reads] at h; exact two rfl h (ihl _) (ihr _)
  | contract _ l r ihl ihr => rw [reads] at h; exact two rfl h (ihl _) (ihr _)
  | power l r ihl ihr =>
    cases b with
    | true => rw [reads] at h; exact two rfl h (ihl _) (ihr _)
    | false => rw [reads] at h; cases h
  | sum n ih =>
    cases b with
    | true => rw [reads] at h; exact (ih _ h).child (by simp [children])
    | false => rw [reads] at h; cases h
  | un op n ih => rw [reads] at h; exact (ih _ h).child (by simp [children])

/-! ### Only vectors of different lengths clash -/

theorem broadcast_clash {a b c : BTy} (z : ZipImpl a b c) (s : Shp a) (t : Shp b) (e : IncShapes)
    (h : z.broadcast s t = .error e) : ∃ n m, n ≠ m ∧ e = ⟨[n], [m]⟩ := by
  obtain ⟨rfl, h2⟩ := broadcast_error z s t e h
  cases z with
  | vv =>
    refine ⟨_, _, fun hnm => ?_, rfl⟩
    exact h2 _ (by rw [show Shp.dims .vec s = Shp.dims .vec t from congrArg (fun n => [n]) hnm]; exact .same _)
  | _ => cases h

/-- Every clash reported by `m` is between two vectors of different lengths. -/
def Clashes {α : Type} (m : EvalM F Γ α) : Prop :=
  ∀ c c' g, m c = (.err g, c') → ∀ l r, CausedBy g (.clash l r) → ∃ n k, n ≠ k ∧ l = [n] ∧ r = [k]

namespace Clashes
variable {α β γ : Type}

theorem map {m : EvalM F Γ α} (h : Clashes m) (f : α → β) : Clashes (m.map f) :=
  fun c c' g hg => h c c' g ((EvalM.map_err_iff _ _ _ _ _).1 hg)

theorem left {m : EvalM F Γ α} (h : Clashes m) : Clashes (m.mapErr .left) := by
  intro c c' g hg l r hk
  obtain ⟨g', h1, rfl⟩ := (EvalM.mapErr_err_iff _ _ _ _ _).1 hg
  cases hk with | left hk => exact h c c' g' h1 l r hk

theorem right {m : EvalM F Γ α} (h : Clashes m) : Clashes (m.mapErr .right) := by
  intro c c' g hg l r hk
  obtain ⟨g', h1, rfl⟩ := (EvalM.mapErr_err_iff _ _ _ _ _).1 hg
  cases hk with | right hk => exact h c c' g' h1 l r hk

theorem read (i : Id) : Clashes (EvalM.read i : EvalM F Γ _) := by
  intro c c' g hg l r hk
  obtain ⟨_, rfl, _⟩ := (EvalM.read_err_iff _ _ _ _).1 hg
  cases hk

theorem lift {r : Res EvalErr α} (h : ∀ e, r ≠ .err e) : Clashes (EvalM.lift r : EvalM F Γ α) :=
  fun _ _ _ hg => absurd ((EvalM.lift_err_iff _ _ _ _).1 hg).1 (h _)

theorem bind {m : EvalM F Γ α} {f : α → EvalM F Γ β} (h : Clashes m) (hf : ∀ a, Clashes (f a)) :
    Clashes (m.bind f) := by
  intro c c' g hg
  rcases (EvalM.bind_err_iff _ _ _ _ _).1 hg with h1 | ⟨a, c1, _, h2⟩
  · exact h c c' g h1
  · exact hf a c1 c' g h2

theorem binM {l : EvalM F Γ α} {r : EvalM F Γ β} {k : α → β → Res IncShapes γ} (hl : Clashes l)
    (hr : Clashes r) (hk : ∀ x y s, k x y = .err s → ∃ n m, n ≠ m ∧ s = ⟨[n], [m]⟩) :
    Clashes (binM l r k) := by
  intro c c' g hg a b hc
  rcases (binM_err_iff _ _ _ _ _ _).1 hg with ⟨g', h1, rfl⟩ | ⟨x, c1, g', _, h2, rfl⟩ |
    ⟨x, c1, y, s, _, _, h3, rfl⟩
  · cases hc with | left hc => exact hl _ _ _ h1 a b hc
  · cases hc with | right hc => exact hr _ _ _ h2 a b hc
  · obtain ⟨n, m, hnm, rfl⟩ := hk x y s h3
    cases hc; exact ⟨n, m, hnm, rfl, rfl⟩

end Clashes

section
variable [Zero F] [One F] [Add F] [Sub F] [Mul F] [Div F] [Neg F] [ScalarFns F]

theorem FnImpl.clashes {e : Node F} {τ : BTy} (d : FnImpl Γ e τ) :
    Clashes d.fn.evaluate ∧ Clashes d.fn.evaluateSpec ∧ Clashes d.fn.evaluateShape := by
  have spec : ∀ {τ : BTy} {m : EvalM F Γ (BSpec F τ)} {s : EvalM F Γ (Shp τ)}, Clashes m →
      Clashes s → Clashes (m.map BSpec.unwrap) ∧ Clashes m ∧ Clashes s :=
    fun h1 h2 => ⟨h1.map _, h1, h2⟩
  have bc : ∀ {a b c : BTy} (z : ZipImpl a b c) (s : Shp a) (t : Shp b) (e : IncShapes),
      Res.ofExcept (z.broadcast s t) = .err e → ∃ n m, n ≠ m ∧ e = ⟨[n], [m]⟩ :=
    fun z s t e h => broadcast_clash z s t e ((Res.ofExcept_err_iff _ _).1 h)
  induction d with
  | var i => exact ⟨.read i, (Clashes.read i).map _, (Clashes.read i).map _⟩
  | varAdj i t k h =>
    have two : ∀ {α : Type} (f : Shp (Γ i) → Shp (Γ t) → Res EvalErr α)
        (_ : ∀ si st e, f si st ≠ .err e),
        Clashes ((((EvalM.read i).map (Buf.shape _)).mapErr EvalErr.left).bind fun si =>
          (((EvalM.read t).map (Buf.shape _)).mapErr EvalErr.right).bind fun st =>
            (EvalM.lift (f si st) : EvalM F Γ α)) := fun f hf =>
      .bind ((Clashes.read i).map _).left (fun si =>
        .bind ((Clashes.read t).map _).right (fun st => .lift (hf si st)))
    refine spec (two _ (fun si st e he => ?_)) (two _ (fun si st e he => absurd he Res.ok_ne_err))
    obtain ⟨s, hs, _⟩ := varAdjSpec_ok (F := F) i t k si st
    rw [he] at hs; cases hs
  | const τ b => exact spec (.lift fun _ => Res.ok_ne_err) (.lift fun _ => Res.ok_ne_err)
  | constSpec τ s => exact spec (.lift fun _ => Res.ok_ne_err) (.lift fun _ => Res.ok_ne_err)
  | constAdj d t k ih =>
    have hs : Clashes ((FnImpl.constAdj d t k).fn.evaluateShape) :=
      .bind ih.2.2.left (fun si =>
        .bind ((Clashes.read t).map _).right (fun st => .lift fun _ => Res.ok_ne_err))
    exact spec (hs.map _) hs
  | cached i d ih =>
    have hc : Clashes ((FnImpl.cached i d).fn.evaluate) := by
      intro c c' g hg
      refine ih.1 c c' g ?_
      simp only [FnImpl.fn] at hg
      match hc : c i with
      | some v => rw [hc] at hg; cases hg
      | none =>
        rw [hc] at hg
        match hm : d.fn.evaluate c with
        | (.ok v, c1) => rw [hm] at hg; cases hg
        | (.err e, c1) => rw [hm] at hg; exact hg
        | (.panic, c1) => rw [hm] at hg; cases hg
    exact ⟨hc, hc.map _, hc.map _⟩
  | add dl dr z ihl ihr =>
    exact spec (.binM ihl.2.1 ihr.2.1 fun x y s h => broadcast_clash z _ _ _ ((addSpec_follows z x y).err h))
      (.binM ihl.2.2 ihr.2.2 fun x y s h => bc z _ _ _ h)
  | sub dl dr z ihl ihr =>
    exact spec (.binM ihl.2.1 ihr.2.1 fun x y s h => broadcast_clash z _ _ _ ((subSpec_follows z x y).err h))
      (.binM ihl.2.2 ihr.2.2 fun x y s h => bc z _ _ _ h)
  | mul dl dr z ihl ihr =>
    exact spec (.binM ihl.2.1 ihr.2.1 fun x y s h => broadcast_clash z _ _ _ ((mulSpec_follows z x y).err h))
      (.binM ihl.2.2 ihr.2.2 fun x y s h => bc z _ _ _ h)
  | div dl dr z ihl ihr =>
    have he : Clashes ((FnImpl.div dl dr z).fn.evaluate) := .binM ihl.1 ihr.1 fun x y s h => by
      rw [Res.ofExcept_err_iff, Buf.zipMapId_eq] at h
      exact broadcast_clash z (Buf.shape _ x) (Buf.shape _ y) s
        (by rw [Buf.broadcast_eq z x y (· / ·), h]; rfl)
    exact ⟨he, he.map _, .binM ihl.2.2 ihr.2.2 fun x y s h => bc z _ _ _ h⟩
  | power dl dr ihl ihr =>
    exact spec (.binM ihl.2.1 ihr.2.1 fun x y s h => absurd h Res.ok_ne_err)
      (.lift fun _ => Res.ok_ne_err)
  | contract dl dr z ihl ihr =>
    refine spec (.binM ihl.2.1 ihr.2.1 fun x y s h => absurd h (contract_ne_err z x y s))
      (.binM ihl.2.2 ihr.2.2 fun x y s h => ?_)
    rw [Res.ofExcept_err_iff] at h
    cases z <;> cases h
  | sum d ih =>
    exact ⟨ih.1.map _, .bind ih.2.1 (fun s => .lift fun e => sumSpec_ne_err _ _), .lift fun _ => Res.ok_ne_err⟩
  | un op d ih => exact ⟨ih.1.map _, ih.2.1.map _, ih.2.2⟩

end

/-! ### The first missing identifier -/

/-- `m` leaves the context alone, succeeds when all of `ids` are defined and otherwise fails with
the first that is not. -/
def Follows {α : Type} (ids : List Id) (m : EvalM F Γ α) : Prop :=
  ∀ c : Ctx F Γ, ((∀ i ∈ ids, c i ≠ none) ∧ ∃ v, m c = (.ok v, c)) ∨
    ∃ i g, FirstMissing c ids i ∧ CausedBy g (.missing i) ∧ m c = (.err g, c)

namespace Follows
variable {α β γ : Type} {ids ids' : List Id}

theorem map {m : EvalM F Γ α} (h : Follows ids m) (f : α → β) : Follows ids (m.map f) := by
  intro c
  rcases h c with ⟨h1, v, hv⟩ | ⟨i, g, h1, h2, h3⟩
  · exact .inl ⟨h1, f v, (EvalM.map_ok_iff _ _ _ _ _).2 ⟨v, hv, rfl⟩⟩
  · exact .inr ⟨i, g, h1, h2, (EvalM.map_err_iff _ _ _ _ _).2 h3⟩

theorem left {m : EvalM F Γ α} (h : Follows ids m) : Follows ids (m.mapErr .left) := by
  intro c
  rcases h c with ⟨h1, v, hv⟩ | ⟨i, g, h1, h2, h3⟩
  · exact .inl ⟨h1, v, (EvalM.mapErr_ok_iff _ _ _ _ _).2 hv⟩
  · exact .inr ⟨i, _, h1, .left h2, (EvalM.mapErr_err_iff _ _ _ _ _).2 ⟨g, h3, rfl⟩⟩

theorem right {m : EvalM F Γ α} (h : Follows ids m) : Follows ids (m.mapErr .right) := by
  intro c
  rcases h c with ⟨h1, v, hv⟩ | ⟨i, g, h1, h2, h3⟩
  · exact .inl ⟨h1, v, (EvalM.mapErr_ok_iff _ _ _ _ _).2 hv⟩
  · exact .inr ⟨i, _, h1, .right h2, (EvalM.mapErr_err_iff _ _ _ _ _).2 ⟨g, h3, rfl⟩⟩

theorem read (i : Id) : Follows [i] (EvalM.read i : EvalM F Γ _) := by
  intro c
  cases h : c i with
  | none =>
    exact .inr ⟨i, _, ⟨[], [], rfl, h, by simp⟩, .undefined i, (EvalM.read_err_iff _ _ _ _).2 ⟨h, rfl, rfl⟩⟩
  | some v => exact .inl ⟨by simp [h], v, (EvalM.read_ok_iff _ _ _ _).2 ⟨h, rfl⟩⟩

theorem lift {r : Res EvalErr α} (h : ∃ v, r = .ok v) : Follows [] (EvalM.lift r : EvalM F Γ α) := by
  obtain ⟨v, rfl⟩ := h
  exact fun c => .inl ⟨by simp, v, rfl⟩

theorem bind {m : EvalM F Γ α} {f : α → EvalM F Γ β} (h : Follows ids m)
    (hf : ∀ a, Follows ids' (f a)) : Follows (ids ++ ids') (m.bind f) := by
  intro c
  rcases h c with ⟨h1, v, hv⟩ | ⟨i, g, ⟨u, w, rfl, hi, hu⟩, h2, h3⟩
  · rcases hf v c with ⟨h2, w, hw⟩ | ⟨i, g, ⟨u, w, rfl, hi, hu⟩, h2, h3⟩
    · refine .inl ⟨fun i hi => ?_, w, (EvalM.bind_ok_iff _ _ _ _ _).2 ⟨v, c, hv, hw⟩⟩
      exact (List.mem_append.1 hi).elim (h1 i) (h2 i)
    · refine .inr ⟨i, g, ⟨ids ++ u, w, by simp, hi, fun j hj => ?_⟩, h2,
        (EvalM.bind_err_iff _ _ _ _ _).2 (.inr ⟨v, c, hv, h3⟩)⟩
      exact (List.mem_append.1 hj).elim (h1 j) (hu j)
  · exact .inr ⟨i, g, ⟨u, w ++ ids', by simp, hi, hu⟩, h2,
      (EvalM.bind_err_iff _ _ _ _ _).2 (.inl h3)⟩

theorem binM {l : EvalM F Γ α} {r : EvalM F Γ β} {k : α → β → Res IncShapes γ} (hl : Follows ids l)
    (hr : Follows ids' r) (hk : ∀ x y, ∃ v, k x y = .ok v) : Follows (ids ++ ids') (binM l r k) := by
  have h := hl.left.bind (f := fun x => (r.mapErr .right).bind fun y =>
    EvalM.lift ((k x y).mapErr .output)) (ids' := ids' ++ []) (fun x => hr.right.bind (fun y => .lift (by
      obtain ⟨v, hv⟩ := hk x y
      exact ⟨v, by rw [hv]; rfl⟩)))
  rwa [List.append_nil] at h

end Follows

section
variable [Zero F] [One F] [Add F] [Sub F] [Mul F] [Div F] [Neg F] [ScalarFns F]

theorem FnImpl.follows (hU : ∀ n, (ScalarFns.fromUsize n : Option F) ≠ none) {e : Node F} {τ : BTy}
    (d : FnImpl Γ e τ) (hc : CacheFree e) (hf : FixedSize Γ e) (hp : FnImpl.ProductsInRange d) :
    Follows (reads true e) d.fn.evaluate ∧ Follows (reads true e) d.fn.evaluateSpec ∧
      Follows (reads false e) d.fn.evaluateShape := by
  have spec : ∀ {τ : BTy} {u w : List Id} {m : EvalM F Γ (BSpec F τ)} {s : EvalM F Γ (Shp τ)},
      Follows u m → Follows w s → Follows u (m.map BSpec.unwrap) ∧ Follows u m ∧ Follows w s :=
    fun h1 h2 => ⟨h1.map _, h1, h2⟩
  have bc : ∀ {a b c : BTy} (z : ZipImpl a b c), a ≠ .vec → b ≠ .vec → ∀ (s : Shp a) (t : Shp b),
      ∃ v, Res.ofExcept (z.broadcast s t) = .ok v := fun z ha hb s t => by
    obtain ⟨v, hv⟩ := broadcast_fixed z ha s t hb
    exact ⟨v, by rw [hv]; rfl⟩
  have sp : ∀ {a b c : BTy} (z : ZipImpl a b c) (k : BSpec F a → BSpec F b → Res IncShapes (BSpec F c)),
      (∀ x y, FollowsShape (k x y) (z.broadcast x.shape y.shape)) → a ≠ .vec → b ≠ .vec →
      ∀ x y, ∃ v, k x y = .ok v := fun z k hk ha hb x y => by
    obtain ⟨s, hs⟩ := broadcast_fixed z ha x.shape y.shape hb
    obtain ⟨t, ht, _⟩ := (hk x y).of_ok hs
    exact ⟨t, ht⟩
  have cf : ∀ {e e' : Node F}, CacheFree e → e' ∈ children e → CacheFree e' :=
    fun h hc n i hs => h n i (.step hc hs)
  induction d with
  | var i => exact ⟨.read i, (Follows.read i).map _, (Follows.read i).map _⟩
  | varAdj i t k h =>
    have two : ∀ {α : Type} (f : Shp (Γ i) → Shp (Γ t) → Res EvalErr α)
        (_ : ∀ si st, ∃ v, f si st = .ok v),
        Follows [i, t] ((((EvalM.read i).map (Buf.shape _)).mapErr EvalErr.left).bind fun si =>
          (((EvalM.read t).map (Buf.shape _)).mapErr EvalErr.right).bind fun st =>
            (EvalM.lift (f si st) : EvalM F Γ α)) := fun f hf =>
      .bind (ids := [i]) (ids' := [t] ++ []) ((Follows.read i).map _).left (fun si =>
        .bind ((Follows.read t).map _).right (fun st => .lift (hf si st)))
    refine spec (two _ (fun si st => ?_)) (two _ (fun si st => ⟨_, rfl⟩))
    obtain ⟨s, hs, _⟩ := varAdjSpec_ok (F := F) i t k si st
    exact ⟨s, hs⟩
  | const τ b => exact spec (.lift ⟨_, rfl⟩) (.lift ⟨_, rfl⟩)
  | constSpec τ s => exact spec (.lift ⟨_, rfl⟩) (.lift ⟨_, rfl⟩)
  | constAdj d t k ih =>
    rename_i n _ _
    have ih := ih (cf hc (by simp [children])) (hf.child (by simp [children])) hp
    have hs : Follows (reads false n ++ ([t] ++ [])) ((FnImpl.constAdj d t k).fn.evaluateShape) :=
      .bind ih.2.2.left (fun si =>
        .bind ((Follows.read t).map _).right (fun st => .lift ⟨_, rfl⟩))
    exact spec (hs.map _) hs
  | cached i d ih => exact absurd (.refl _) (hc _ i)
  | add dl dr z ihl ihr =>
    have fl := hf.child (e' := _) (show _ ∈ children _ from List.mem_cons_self ..)
    have fr := hf.child (e' := _) (show _ ∈ children _ from List.mem_cons_of_mem _ (List.mem_cons_self ..))
    have ihl := ihl (cf hc (by simp [children])) fl hp.1
    have ihr := ihr (cf hc (by simp [children])) fr hp.2
    exact spec (.binM ihl.2.1 ihr.2.1 (sp z _ (addSpec_follows z) (dl.ne_vec fl) (dr.ne_vec fr)))
      (.binM ihl.2.2 ihr.2.2 (bc z (dl.ne_vec fl) (dr.ne_vec fr)))
  | sub dl dr z ihl ihr =>
    have fl := hf.child (e' := _) (show _ ∈ children _ from List.mem_cons_self ..)
    have fr := hf.child (e' := _) (show _ ∈ children _ from List.mem_cons_of_mem _ (List.mem_cons_self ..))
    have ihl := ihl (cf hc (by simp [children])) fl hp.1
    have ihr := ihr (cf hc (by simp [children])) fr hp.2
    exact spec (.binM ihl.2.1 ihr.2.1 (sp z _ (subSpec_follows z) (dl.ne_vec fl) (dr.ne_vec fr)))
      (.binM ihl.2.2 ihr.2.2 (bc z (dl.ne_vec fl) (dr.ne_vec fr)))
  | mul dl dr z ihl ihr =>
    have fl := hf.child (e' := _) (show _ ∈ children _ from List.mem_cons_self ..)
    have fr := hf.child (e' := _) (show _ ∈ children _ from List.mem_cons_of_mem _ (List.mem_cons_self ..))
    have ihl := ihl (cf hc (by simp [children])) fl hp.1
    have ihr := ihr (cf hc (by simp [children])) fr hp.2
    exact spec (.binM ihl.2.1 ihr.2.1 (sp z _ (mulSpec_follows z) (dl.ne_vec fl) (dr.ne_vec fr)))
      (.binM ihl.2.2 ihr.2.2 (bc z (dl.ne_vec fl) (dr.ne_vec fr)))
  | div dl dr z ihl ihr =>
    have fl := hf.child (e' := _) (show _ ∈ children _ from List.mem_cons_self ..)
    have fr := hf.child (e' := _) (show _ ∈ children _ from List.mem_cons_of_mem _ (List.mem_cons_self ..))
    have ihl := ihl (cf hc (by simp [children])) fl hp.1
    have ihr := ihr (cf hc (by simp [children])) fr hp.2
    have he := Follows.binM ihl.1 ihr.1 (k := fun x y => Res.ofExcept (Buf.zipMapId z x y (· / ·)))
      (fun x y => by
        obtain ⟨s, hs⟩ := broadcast_fixed z (dl.ne_vec fl) (Buf.shape _ x) (Buf.shape _ y) (dr.ne_vec fr)
        rw [Buf.broadcast_eq z x y (· / ·)] at hs
        rw [Buf.zipMapId_eq]
        cases hz : Buf.zipMap z x y (· / ·) with
        | ok v => exact ⟨v, rfl⟩
        | error e => rw [hz] at hs; cases hs)
    exact ⟨he, he.map _, .binM ihl.2.2 ihr.2.2 (bc z (dl.ne_vec fl) (dr.ne_vec fr))⟩
  | power dl dr ihl ihr =>
    have fl := hf.child (e' := _) (show _ ∈ children _ from List.mem_cons_self ..)
    have fr := hf.child (e' := _) (show _ ∈ children _ from List.mem_cons_of_mem _ (List.mem_cons_self ..))
    have ihl := ihl (cf hc (by simp [children])) fl hp.1
    have ihr := ihr (cf hc (by simp [children])) fr hp.2
    exact spec (.binM ihl.2.1 ihr.2.1 (fun x y => ⟨_, rfl⟩)) (.lift ⟨_, rfl⟩)
  | contract dl dr z ihl ihr =>
    have fl := hf.child (e' := _) (show _ ∈ children _ from List.mem_cons_self ..)
    have fr := hf.child (e' := _) (show _ ∈ children _ from List.mem_cons_of_mem _ (List.mem_cons_self ..))
    have ihl := ihl (cf hc (by simp [children])) fl hp.1
    have ihr := ihr (cf hc (by simp [children])) fr hp.2.1
    refine spec (.binM ihl.2.1 ihr.2.1 (fun x y => specContract_ok hU z x y (inRange_of z hp.2.2.1 hp.2.2.2)))
      (.binM ihl.2.2 ihr.2.2 (fun x y => ?_))
    cases z <;> exact ⟨_, rfl⟩
  | sum d ih =>
    have ih := ih (cf hc (by simp [children])) (hf.child (by simp [children])) hp
    refine ⟨ih.1.map _, ?_, .lift ⟨_, rfl⟩⟩
    have := ih.2.1.bind (f := fun s => EvalM.lift (sumSpec s)) (fun s => .lift (sumSpec_ok hU s))
    rwa [List.append_nil] at this
  | un op d ih =>
    have ih := ih (cf hc (by simp [children])) (hf.child (by simp [children])) hp
    exact ⟨ih.1.map _, ih.2.1.map _, ih.2.2⟩

end

end Aegir
