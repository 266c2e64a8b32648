import Verif.Spec.Compile
import Verif.Spec.Instances
import Verif.Lemmas.Eval
import Verif.Props.C45_Special
/-!
# C41: the `aegir!` macro
-/

namespace Aegir

open Compile

private theorem ind {P : Compile.Expr → Prop} (h : ∀ e, (∀ s ∈ e.subs, P s) → P e) : ∀ e, P e := by
  intro e
  refine h e fun s hs => ?_
  have : sizeOf s < sizeOf e := by
    cases e <;> simp only [Expr.subs, List.mem_cons, List.not_mem_nil, or_false] at hs
    case binary => rcases hs with rfl | rfl <;> simp +arith
    case paren | unary => subst hs; simp +arith
    case methodCall r m args =>
      rcases hs with rfl | hs
      · simp; omega
      · have := List.sizeOf_lt_of_mem hs
        simp; omega
    case form k ss =>
      have := List.sizeOf_lt_of_mem hs
      simp; omega
  exact ind h s
termination_by e => sizeOf e

/-! ## Which expressions are rewritten -/

private theorem foldAll_none (es : List Compile.Expr) : foldAll es = none ↔ ∃ e ∈ es, fold e = none := by
  induction es with
  | nil => simp [foldAll]
  | cons e es ih =>
    rw [foldAll]
    cases h : fold e <;> simp [h, ih]

private theorem foldAll_some (es es' : List Compile.Expr) :
    foldAll es = some es' ↔ List.Forall₂ (fun e e' => fold e = some e') es es' := by
  induction es generalizing es' with
  | nil => simp [foldAll, eq_comm]
  | cons e es ih =>
    rw [foldAll]
    cases h : fold e with
    | none => simp [h, List.forall₂_cons_left_iff]
    | some e0 =>
      simp only [Option.bind_some, Option.map_eq_some_iff, List.forall₂_cons_left_iff, h, ih]
      constructor
      · rintro ⟨b, hb, rfl⟩
        exact ⟨e0, b, rfl, hb, rfl⟩
      · rintro ⟨_, b, ⟨⟩, hb, rfl⟩
        exact ⟨b, hb, rfl⟩

private theorem method_none (op : BinOp) : op.method = none ↔ ¬ Supported op := by
  cases op <;> simp [BinOp.method, Supported]

private theorem isSquare_iff (op : BinOp) (m : String) (hm : op.method = some m) (r : Compile.Expr) :
    isSquare m r = true ↔ op = .bitXor ∧ IsTwo r := by
  cases r with
  | lit l => cases op <;> cases l <;> simp_all [BinOp.method, isSquare, Lit.isTwo, IsTwo] <;>
      (subst hm; simp)
  | _ => simp [isSquare, IsTwo]

private theorem fold_two {r : Compile.Expr} (h : IsTwo r) : fold r ≠ none := by
  rcases h with rfl | rfl <;> simp [fold]

private theorem fold_none_step (e : Compile.Expr) : fold e = none ↔
    (∃ op l r, e = .binary op l r ∧ ¬ Supported op) ∨ ∃ s ∈ e.subs, fold s = none := by
  cases e with
  | binary op l r =>
    rw [fold]
    cases hm : op.method with
    | none => simp [(method_none op).1 hm]
    | some m =>
      have hs : Supported op := by
        by_contra h
        rw [(method_none op).2 h] at hm
        cases hm
      by_cases hq : isSquare m r = true
      · have := fold_two ((isSquare_iff op m hm r).1 hq).2
        simp [hq, hs, Expr.subs, this]
      · cases hr : fold r <;> simp [hq, hs, Expr.subs, hr]
  | lit l => cases l <;> simp [fold, Expr.subs]
  | path | constant => simp [fold, Expr.subs]
  | paren e | unary op e => simp [fold, Expr.subs]
  | methodCall r m args =>
    rw [fold]
    cases hr : fold r <;> simp [Expr.subs, hr, foldAll_none]
  | form k ss => simp [fold, Expr.subs, foldAll_none]

/-- The expansion fails exactly if an operator other than `+`, `-`, `*`, `^` occurs. -/
theorem C41_fails_iff (e : Compile.Expr) :
    aegir e = none ↔ ∃ op l r, Within (.binary op l r) e ∧ ¬ Supported op := by
  rw [aegir, Option.map_eq_none_iff]
  induction e using ind with
  | h e ih =>
    rw [fold_none_step]
    constructor
    · rintro (⟨op, l, r, rfl, h⟩ | ⟨s, hs, h⟩)
      · exact ⟨op, l, r, .refl _, h⟩
      · obtain ⟨op, l, r, hw, h⟩ := (ih s hs).1 h
        exact ⟨op, l, r, .sub hs hw, h⟩
    · rintro ⟨op, l, r, hw, h⟩
      cases hw with
      | refl => exact .inl ⟨op, l, r, rfl, h⟩
      | sub hs hw => exact .inr ⟨_, hs, (ih _ hs).2 ⟨op, l, r, hw, h⟩⟩

/-- Division is not supported, at any depth. -/
example (k : String) (x : Compile.Expr) :
    aegir (.form k [.paren (.binary .div (.path "a") (.path "b")), x]) = none :=
  (C41_fails_iff _).2 ⟨.div, .path "a", .path "b",
    .sub (List.mem_cons_self ..) (.sub (List.mem_cons_self ..) (.refl _)),
    by simp [Supported]⟩

/-- A form other than operators and numbers is left in place; its subexpressions are rewritten in
order. -/
theorem C41_in_place (e e' : Compile.Expr) (h : ¬ Special e) : fold e = some e' ↔
    ∃ ss', List.Forall₂ (fun s s' => fold s = some s') e.subs ss' ∧ e' = e.withSubs ss' := by
  cases e with
  | binary => exact (h trivial).elim
  | lit l =>
    cases l with
    | int | float => exact (h trivial).elim
    | other => simp [fold, Expr.subs, Expr.withSubs, eq_comm]
  | path | constant => simp [fold, Expr.subs, Expr.withSubs, eq_comm]
  | paren e | unary op e =>
    simp only [fold, Option.map_eq_some_iff, Expr.subs, List.forall₂_cons_left_iff,
      List.forall₂_nil_left_iff]
    constructor
    · rintro ⟨a, ha, rfl⟩
      exact ⟨[a], ⟨a, [], ha, rfl, rfl⟩, rfl⟩
    · rintro ⟨_, ⟨a, _, ha, rfl, rfl⟩, rfl⟩
      exact ⟨a, ha, rfl⟩
  | methodCall r m args =>
    simp only [fold, Option.bind_eq_some_iff, Option.map_eq_some_iff, foldAll_some, Expr.subs,
      List.forall₂_cons_left_iff]
    constructor
    · rintro ⟨a, ha, as, has, rfl⟩
      exact ⟨a :: as, ⟨a, as, ha, has, rfl⟩, rfl⟩
    · rintro ⟨_, ⟨a, as, ha, has, rfl⟩, rfl⟩
      exact ⟨a, ha, as, has, rfl⟩
  | form k ss =>
    simp only [fold, Option.map_eq_some_iff, foldAll_some, Expr.subs]
    exact exists_congr fun a => and_congr_right fun _ => eq_comm

/-- A call `f(x + 1)` stays a call. -/
example : fold (.form "call f" [.binary .add (.path "x") (.lit (.int "1"))]) =
    some (.form "call f" [.methodCall (.path "x") "add" [.constant "i64" "1"]]) :=
  (C41_in_place _ _ (by simp [Special])).2
    ⟨[_], .cons (by simp [fold, BinOp.method, isSquare]) .nil, rfl⟩

private theorem withSubs_facts {e : Compile.Expr} {ss : List Compile.Expr}
    (hl : ss.length = e.subs.length) (h : ¬ Special e) :
    (e.withSubs ss).subs = ss ∧ ¬ Special (e.withSubs ss) := by
  cases e with
  | binary => exact (h trivial).elim
  | lit l =>
    obtain rfl := List.eq_nil_of_length_eq_zero hl
    exact ⟨rfl, h⟩
  | path | constant =>
    obtain rfl := List.eq_nil_of_length_eq_zero hl
    exact ⟨rfl, id⟩
  | paren | unary =>
    obtain ⟨x, rfl⟩ := List.length_eq_one_iff.1 hl
    exact ⟨rfl, id⟩
  | methodCall r m args =>
    cases ss with
    | nil => cases hl
    | cons => exact ⟨rfl, id⟩
  | form => exact ⟨rfl, id⟩

/-- After the rewriting no operators and numbers are left. -/
theorem C41_complete (e e' : Compile.Expr) (h : fold e = some e') (s : Compile.Expr)
    (hs : Within s e') : ¬ Special s := by
  induction e using ind generalizing e' s with
  | h e ih =>
    have all : ∀ (ss ss' : List Compile.Expr), (∀ x ∈ ss, x ∈ e.subs) →
        List.Forall₂ (fun s s' => fold s = some s') ss ss' → ∀ x ∈ ss', Within s x → ¬ Special s := by
      intro ss ss' hss hf
      induction hf with
      | nil => simp
      | cons h1 _ ih2 =>
        intro x hx hw
        rcases List.mem_cons.1 hx with rfl | hx
        · exact ih _ (hss _ (by simp)) _ h1 s hw
        · exact ih2 (fun y hy => hss _ (List.mem_cons_of_mem _ hy)) x hx hw
    by_cases hsp : Special e
    · cases e with
      | binary op l r =>
        rw [fold, Option.bind_eq_some_iff] at h
        obtain ⟨m, hm, h⟩ := h
        by_cases hq : isSquare m r = true
        · rw [if_pos hq, Option.map_eq_some_iff] at h
          obtain ⟨l', hl, rfl⟩ := h
          cases hs with
          | refl => exact id
          | sub hm hw =>
            simp only [Expr.subs, List.mem_cons, List.not_mem_nil, or_false] at hm
            subst hm
            exact ih l (by simp [Expr.subs]) _ hl s hw
        · rw [if_neg hq, Option.bind_eq_some_iff] at h
          obtain ⟨r', hr, h⟩ := h
          obtain ⟨l', hl, rfl⟩ := (Option.map_eq_some_iff).1 h
          cases hs with
          | refl => exact id
          | sub hm hw =>
            simp only [Expr.subs, List.mem_cons, List.not_mem_nil, or_false] at hm
            rcases hm with rfl | rfl
            · exact ih l (by simp [Expr.subs]) _ hl s hw
            · exact ih r (by simp [Expr.subs]) _ hr s hw
      | lit l =>
        cases l with
        | int t | float t =>
          simp only [fold, Option.some.injEq] at h
          subst h
          cases hs with
          | refl => exact id
          | sub hm hw => simp [Expr.subs] at hm
        | other => exact hsp.elim
      | _ => exact hsp.elim
    · obtain ⟨ss', hf, rfl⟩ := (C41_in_place e e' hsp).1 h
      obtain ⟨hsub, hns⟩ := withSubs_facts hf.length_eq.symm hsp
      cases hs with
      | refl => exact hns
      | sub hm hw => exact all _ _ (fun _ hx => hx) hf _ (hsub ▸ hm) hw

/-! ## The nodes -/

private theorem within_sub {x e : Compile.Expr} (h : Within x e) : ∀ s ∈ x.subs, Within s e := by
  induction h with
  | refl => exact fun s hs => .sub hs (.refl s)
  | sub hm _ ih => exact fun s hs => .sub hm (ih s hs)

/-- No prefix operators and no other forms. -/
private def NoPrefix (e : Compile.Expr) : Prop :=
  ∀ s, Within s e → (∀ k ss, s ≠ .form k ss) ∧ ∀ op x, s ≠ .unary op x

private theorem NoPrefix.call {r : Compile.Expr} {m : String} {args : List Compile.Expr}
    (h : NoPrefix r) (ha : ∀ a ∈ args, NoPrefix a) : NoPrefix (.methodCall r m args) := by
  intro s hs
  cases hs with
  | refl => simp
  | sub hm hw =>
    rcases List.mem_cons.1 hm with rfl | hm
    · exact h s hw
    · exact ha _ hm s hw

private theorem NoPrefix.leaf {e : Compile.Expr} (h : e.subs = []) (h1 : ∀ k ss, e ≠ .form k ss) :
    NoPrefix e := by
  intro s hs
  cases hs with
  | refl => exact ⟨h1, by rintro op x rfl; cases h⟩
  | sub hm hw => rw [h] at hm; cases hm

private theorem NoPrefix.paren {e : Compile.Expr} (h : NoPrefix e) : NoPrefix (.paren e) := by
  intro s hs
  cases hs with
  | refl => simp
  | sub hm hw =>
    obtain rfl := List.mem_singleton.1 hm
    exact h s hw

private theorem node_aux {F : Type} (env : String → Option (Node F)) (num : String → String → Option F)
    (e : Compile.Expr) (n : Node F) (h : Stands env num e n) :
    ∃ e', fold e = some e' ∧ build env num e' = some n ∧ NoPrefix e' := by
  have two : ∀ {r : Compile.Expr}, ¬ IsTwo r → isSquare "pow" r = false := by
    intro r h
    by_contra hc
    exact h ((isSquare_iff .bitXor "pow" rfl r).1 (by simpa using hc)).2
  have nosq : ∀ {m : String} (r : Compile.Expr), m ≠ "pow" → isSquare m r = false := by
    intro m r h
    cases r <;> simp [isSquare, h]
  induction h with
  | path h => exact ⟨_, rfl, h, .leaf rfl (by simp)⟩
  | int h | float h => exact ⟨_, rfl, by rw [build, h]; rfl, .leaf rfl (by simp)⟩
  | paren _ ih =>
    obtain ⟨e', h1, h2, h3⟩ := ih
    exact ⟨.paren e', by simp [fold, h1], by simpa [build] using h2, h3.paren⟩
  | add _ _ ihl ihr =>
    obtain ⟨l', h1, h2, h5⟩ := ihl
    obtain ⟨r', h3, h4, h6⟩ := ihr
    refine ⟨.methodCall l' "add" [r'], by simp [fold, BinOp.method, nosq, h1, h3], by simp [build, h2, h4], ?_⟩
    exact NoPrefix.call h5 (by simpa using h6)
  | sub _ _ ihl ihr =>
    obtain ⟨l', h1, h2, h5⟩ := ihl
    obtain ⟨r', h3, h4, h6⟩ := ihr
    refine ⟨.methodCall l' "sub" [r'], by simp [fold, BinOp.method, nosq, h1, h3], by simp [build, h2, h4], ?_⟩
    exact NoPrefix.call h5 (by simpa using h6)
  | mul _ _ ihl ihr =>
    obtain ⟨l', h1, h2, h5⟩ := ihl
    obtain ⟨r', h3, h4, h6⟩ := ihr
    refine ⟨.methodCall l' "mul" [r'], by simp [fold, BinOp.method, nosq, h1, h3], by simp [build, h2, h4], ?_⟩
    exact NoPrefix.call h5 (by simpa using h6)
  | square _ ht ihl =>
    obtain ⟨l', h1, h2, h3⟩ := ihl
    refine ⟨.methodCall l' "squared" [], ?_, by simp [build, h2], h3.call (by simp)⟩
    simp [fold, BinOp.method, (isSquare_iff .bitXor "pow" rfl _).2 ⟨rfl, ht⟩, h1]
  | power _ _ ht ihl ihr =>
    obtain ⟨l', h1, h2, h5⟩ := ihl
    obtain ⟨r', h3, h4, h6⟩ := ihr
    refine ⟨.methodCall l' "pow" [r'], by simp [fold, BinOp.method, two ht, h1, h3], by simp [build, h2, h4], ?_⟩
    exact NoPrefix.call h5 (by simpa using h6)
  | call0 _ hm ih =>
    obtain ⟨e', h1, h2, h3⟩ := ih
    refine ⟨.methodCall e' _ [], by simp only [fold, foldAll, h1]; rfl, ?_, h3.call (by simp)⟩
    simp only [List.mem_cons, Prod.mk.injEq, List.not_mem_nil, or_false] at hm
    rcases hm with ⟨rfl, rfl⟩ | ⟨rfl, rfl⟩ | ⟨rfl, rfl⟩ | ⟨rfl, rfl⟩ | ⟨rfl, rfl⟩ <;>
      simp [build, h2]
  | sum _ ih =>
    obtain ⟨e', h1, h2, h3⟩ := ih
    exact ⟨.methodCall e' "sum" [], by simp only [fold, foldAll, h1]; rfl, by simp [build, h2],
      h3.call (by simp)⟩
  | dot _ _ ihl ihr =>
    obtain ⟨l', h1, h2, h5⟩ := ihl
    obtain ⟨r', h3, h4, h6⟩ := ihr
    refine ⟨.methodCall l' "dot" [r'], by simp [fold, foldAll, h1, h3], by simp [build, h2, h4], ?_⟩
    exact NoPrefix.call h5 (by simpa using h6)
  | div _ _ ihl ihr =>
    obtain ⟨l', h1, h2, h5⟩ := ihl
    obtain ⟨r', h3, h4, h6⟩ := ihr
    refine ⟨.methodCall l' "div" [r'], by simp [fold, foldAll, h1, h3], by simp [build, h2, h4], ?_⟩
    exact NoPrefix.call h5 (by simpa using h6)

/-- An arithmetic expression over names, numbers and method calls becomes the node it stands for. -/
theorem C41_node {F : Type} (env : String → Option (Node F)) (num : String → String → Option F)
    (e : Compile.Expr) (n : Node F) (h : Stands env num e n) :
    ∃ e', fold e = some e' ∧ build env num e' = some n := by
  obtain ⟨e', h1, h2, _⟩ := node_aux env num e n h
  exact ⟨e', h1, h2⟩

/-- The expression of the README: `(model - y) ^ 2`. -/
example (model : Node ℤ) : Stands (fun p => if p = "model" then some model else if p = "y" then
    some (.var 1) else none) (fun _ _ => none)
    (.binary .bitXor (.paren (.binary .sub (.path "model") (.path "y"))) (.lit (.int "2")))
    (.un .square (.sub model (.var 1))) :=
  .square (.paren (.sub (.path rfl) (.path rfl))) (.inl rfl)

/-! ## The tokens -/

/-- Equal to `r` at every sufficient depth. -/
private def Ev {α : Type} (f : Nat → Option α) (r : α) : Prop := ∃ N, ∀ n ≥ N, f n = some r

private theorem Ev.succ {α : Type} {f : Nat → Option α} {r : α} (h : Ev (fun n => f (n + 1)) r) :
    Ev f r := by
  obtain ⟨N, hN⟩ := h
  refine ⟨N + 1, fun n hn => ?_⟩
  obtain ⟨k, rfl⟩ : ∃ k, n = k + 1 := ⟨n - 1, by omega⟩
  exact hN k (by omega)

private theorem Ev.and {α β : Type} {f : Nat → Option α} {g : Nat → Option β} {r : α} {s : β}
    (h : Ev f r) (h' : Ev g s) : ∃ N, ∀ n ≥ N, f n = some r ∧ g n = some s := by
  obtain ⟨N, hN⟩ := h
  obtain ⟨M, hM⟩ := h'
  exact ⟨max N M, fun n hn => ⟨hN n (by omega), hM n (by omega)⟩⟩

/-- No token that continues an expression. -/
private def Stop (ts : List Tok) : Prop := ∀ ts', ts ≠ .dot :: ts'

private theorem readCalls_stop {ts : List Tok} (h : Stop ts) (e : Compile.Expr) :
    Ev (fun n => readCalls n e ts) (e, ts) := by
  refine ⟨1, fun n hn => ?_⟩
  obtain ⟨k, rfl⟩ : ∃ k, n = k + 1 := ⟨n - 1, by omega⟩
  show readCalls (k + 1) e ts = _
  rw [readCalls]
  · intro hc
    cases hc
  · intro _ m ts' _ hc
    exact h _ hc

/-- Only the forms that `print` and `readExpr` treat. -/
private def Simple : Compile.Expr → Prop
  | .form _ _ => False
  | e => ¬ Special e

private theorem print_head (e : Compile.Expr) (hf : Simple e) (h : ∀ s, Within s e → Simple s) :
    ∃ t ts, print e = t :: ts ∧ t ≠ .close := by
  induction e using ind with
  | h e ih =>
    cases e with
    | binary => exact (hf trivial).elim
    | lit l => cases l with
      | int | float => exact (hf trivial).elim
      | other => exact ⟨_, _, rfl, by simp⟩
    | path | constant | paren | unary => exact ⟨_, _, rfl, by simp⟩
    | methodCall r m args =>
      have hw : ∀ s, Within s r → Simple s := fun s hs => h s (.sub (by simp [Expr.subs]) hs)
      obtain ⟨t, ts, h1, h2⟩ := ih r (by simp [Expr.subs]) (hw r (.refl r)) hw
      exact ⟨t, _, by rw [print, h1]; rfl, h2⟩
    | form => exact hf.elim

private theorem reads (e : Compile.Expr) (h : ∀ s, Within s e → Simple s)
    (hr : ∀ r m args, Within (.methodCall r m args) e → ∀ op x, r ≠ .unary op x) :
    (∀ rest, Stop rest → Ev (fun n => readExpr n (print e ++ rest)) (e, rest)) ∧
    ((∀ op x, e ≠ .unary op x) → ∀ rest r, Ev (fun n => readCalls n e rest) r →
      Ev (fun n => readExpr n (print e ++ rest)) r) := by
  induction e using ind with
  | h e ih =>
    have key : (∀ op x, e ≠ .unary op x) → ((∀ op x, e ≠ .unary op x) → ∀ rest r,
        Ev (fun n => readCalls n e rest) r → Ev (fun n => readExpr n (print e ++ rest)) r) →
        (∀ rest, Stop rest → Ev (fun n => readExpr n (print e ++ rest)) (e, rest)) ∧
        ((∀ op x, e ≠ .unary op x) → ∀ rest r, Ev (fun n => readCalls n e rest) r →
          Ev (fun n => readExpr n (print e ++ rest)) r) :=
      fun hu hk => ⟨fun rest hs => hk hu rest _ (readCalls_stop hs e), hk⟩
    have child : ∀ s ∈ e.subs, _ := fun s hs => ih s hs (fun t ht => h t (.sub hs ht))
      (fun r m a hw => hr r m a (.sub hs hw))
    cases e with
    | binary => exact ((h _ (.refl _)) trivial).elim
    | form => exact ((h _ (.refl _))).elim
    | lit l => cases l with
      | int | float => exact ((h _ (.refl _)) trivial).elim
      | other => exact key (by simp) fun _ rest r hk => Ev.succ hk
    | path | constant => exact key (by simp) fun _ rest r hk => Ev.succ hk
    | paren e =>
      refine key (by simp) fun _ rest r hk => Ev.succ ?_
      obtain ⟨N, hN⟩ := Ev.and ((child e (by simp [Expr.subs])).1 (.close :: rest)
        (by simp [Stop])) hk
      refine ⟨N, fun n hn => ?_⟩
      simp only [print, List.cons_append, List.append_assoc, List.nil_append, readExpr]
      rw [(hN n hn).1]
      exact (hN n hn).2
    | unary op e =>
      refine ⟨fun rest hs => Ev.succ ?_, fun hc => (hc op e rfl).elim⟩
      obtain ⟨N, hN⟩ := (child e (by simp [Expr.subs])).1 rest hs
      refine ⟨N, fun n hn => ?_⟩
      simp only [print, List.cons_append, readExpr]
      rw [show readExpr n (print e ++ rest) = _ from hN n hn]
      rfl
    | methodCall r m args =>
      refine key (by simp) fun _ rest res hk => ?_
      have hargs : ∀ as : List Compile.Expr, (∀ a ∈ as, a ∈ (Expr.methodCall r m args).subs) →
          Ev (fun n => readArgs n (printArgs as ++ .close :: rest)) (as, rest) := by
        intro as
        induction as with
        | nil => exact fun _ => Ev.succ ⟨0, fun n _ => by simp [printArgs, readArgs]⟩
        | cons a as iha =>
          intro hm
          have ha := child a (hm a (by simp))
          have hsimp : ∀ s, Within s a → Simple s := fun t ht => h t (.sub (hm a (by simp)) ht)
          obtain ⟨t, ts, ht, htc⟩ := print_head a (hsimp a (.refl a)) hsimp
          cases as with
          | nil =>
            refine Ev.succ ?_
            obtain ⟨N, hN⟩ := ha.1 (.close :: rest) (by simp [Stop])
            refine ⟨N, fun n hn => ?_⟩
            have := hN n hn
            simp only [printArgs]
            simp only [ht, List.cons_append] at this ⊢
            rw [readArgs, this]
            intro ts' hc
            exact htc (List.cons.inj hc).1
          | cons a' as' =>
            have h2 := iha fun x hx => hm x (List.mem_cons_of_mem _ hx)
            refine Ev.succ ?_
            obtain ⟨N, hN⟩ := Ev.and (ha.1 (.comma :: (printArgs (a' :: as') ++ .close :: rest))
              (by simp [Stop])) h2
            refine ⟨N, fun n hn => ?_⟩
            have := hN n hn
            simp only [printArgs.eq_3, List.append_assoc, List.cons_append]
            simp only [ht, List.cons_append] at this ⊢
            rw [readArgs, this.1]
            · simp only [this.2]
              rfl
            · intro ts' hc
              exact htc (List.cons.inj hc).1
      have h1 := (child r (by simp [Expr.subs])).2 (hr r m args (.refl _))
        (.dot :: .ident m :: .open :: (printArgs args ++ .close :: rest)) res
        (Ev.succ (by
          obtain ⟨N, hN⟩ := Ev.and (hargs args fun a ha => by simp [Expr.subs, ha]) hk
          refine ⟨N, fun n hn => ?_⟩
          simp only [readCalls]
          rw [(hN n hn).1]
          exact (hN n hn).2))
      simpa [print] using h1

/-- The tokens of the expansion are read as the rewritten expression, if no method is called on a
prefix operator (in terms of the source: no prefix operator at the left end of an operand), for the
forms with modelled tokens. -/
theorem C41_tokens_partial (e e' : Compile.Expr) (h : fold e = some e')
    (hf : ∀ k ss, ¬ Within (.form k ss) e')
    (hr : ∀ r m args, Within (.methodCall r m args) e' → ∀ op x, r ≠ .unary op x) :
    Reads (print e') e' := by
  have := (reads e' (fun s hs => ?_) hr).1 [] (by simp [Stop])
  · simpa [Reads, Ev] using this
  · cases s with
    | form k ss => exact hf k ss hs
    | _ => exact C41_complete e e' h _ hs

/-- The expansion of an arithmetic expression, read as Rust reads it, constructs the node that the
expression stands for. -/
theorem C41_expansion {F : Type} (env : String → Option (Node F)) (num : String → String → Option F)
    (e : Compile.Expr) (n : Node F) (h : Stands env num e n) :
    ∃ ts e', aegir e = some ts ∧ Reads ts e' ∧ build env num e' = some n := by
  obtain ⟨e', h1, h2, h3⟩ := node_aux env num e n h
  refine ⟨print e', e', by simp [aegir, h1], C41_tokens_partial e e' h1 ?_ ?_, h2⟩
  · exact fun k ss hw => (h3 _ hw).1 k ss rfl
  · intro r m args hw
    exact (h3 r (within_sub hw r (by simp [Expr.subs]))).2

/-- With a prefix operator inside brackets, and method calls: `-(x.ln() + 1.5) `. -/
example : ∃ e', fold (.unary "-" (.paren (.binary .add (.methodCall (.path "x") "ln" [])
    (.lit (.float "1.5"))))) = some e' ∧ Reads (print e') e' :=
  ⟨.unary "-" (.paren (.methodCall (.methodCall (.path "x") "ln" []) "add"
    [.constant "f64" "1.5"])), rfl, 12, fun n hn => by
      obtain ⟨k, rfl⟩ : ∃ k, n = k + 12 := ⟨n - 12, by omega⟩
      rfl⟩

private theorem reads_unique {ts : List Tok} {e e' : Compile.Expr} (h : Reads ts e)
    (h' : Reads ts e') : e = e' := by
  obtain ⟨N, hN⟩ := h
  obtain ⟨M, hM⟩ := h'
  have := (hN (max N M) (by omega)).symm.trans (hM (max N M) (by omega))
  simpa using this

/-- The restriction in `C41_tokens_partial` is necessary: `-x - y` is expanded to `-x.sub(y)`, which
is read as `-(x.sub(y))` and not as the rewritten expression `(-x).sub(y)`. -/
theorem C41_violation_prefix (op p q : String) :
    let e' := Expr.methodCall (.unary op (.path p)) "sub" [.path q]
    fold (.binary .sub (.unary op (.path p)) (.path q)) = some e' ∧
    ∃ ts, aegir (.binary .sub (.unary op (.path p)) (.path q)) = some ts ∧
      Reads ts (.unary op (.methodCall (.path p) "sub" [.path q])) ∧ ¬ Reads ts e' := by
  have h : Reads (print (.methodCall (.unary op (.path p)) "sub" [.path q]))
      (.unary op (.methodCall (.path p) "sub" [.path q])) := by
    refine ⟨12, fun n hn => ?_⟩
    obtain ⟨k, rfl⟩ : ∃ k, n = k + 12 := ⟨n - 12, by omega⟩
    rfl
  refine ⟨rfl, _, rfl, h, fun h' => ?_⟩
  have := reads_unique h h'
  cases this

/-! ## The value -/

section
variable {F : Type} [Zero F] [One F] [Add F] [Sub F] [Mul F] [Div F] [Neg F] [ScalarFns F]
variable {Γ : Id → BTy}

/-- The node evaluates to the number `x`. -/
private def Gives (c : Ctx F Γ) (n : Node F) (x : F) : Prop :=
  ∃ d : FnImpl Γ n .scalar, d.evaluate c = (.ok x, c) ∧ d.evaluateSpec c = (.ok (.raw x), c)

private theorem gives_bin {c : Ctx F Γ} {l r e : Node F} {x y z : F} (hl : Gives c l x)
    (hr : Gives c r y) (k : BSpec F .scalar → BSpec F .scalar → Res IncShapes (BSpec F .scalar))
    (hk : k (.raw x) (.raw y) = .ok (.raw z))
    (he : ∀ (dl : FnImpl Γ l .scalar) (dr : FnImpl Γ r .scalar), ∃ d : FnImpl Γ e .scalar,
      d.evaluate = d.evaluateSpec.map BSpec.unwrap ∧
      d.evaluateSpec = binM dl.evaluateSpec dr.evaluateSpec k) : Gives c e z := by
  obtain ⟨dl, _, hl⟩ := hl
  obtain ⟨dr, _, hr⟩ := hr
  obtain ⟨d, hd, hd'⟩ := he dl dr
  have h : d.evaluateSpec c = (.ok (.raw z), c) := by
    rw [hd']
    exact (binM_ok_iff _ _ _ _ _ _).2 ⟨_, _, _, hl, hr, hk⟩
  exact ⟨d, by rw [hd]; simp only [EvalM.map, h]; rfl, h⟩

private theorem gives_square {c : Ctx F Γ} {n : Node F} {x : F} (h : Gives c n x) :
    Gives c (.un .square n) (ScalarFns.pow x (1 + 1)) := by
  obtain ⟨d, hd1, hd2⟩ := h
  refine ⟨.un .square d, ?_, ?_⟩
  · show EvalM.map _ d.evaluate c = _
    simp only [EvalM.map, hd1]
    rfl
  · show EvalM.map _ d.evaluateSpec c = _
    simp only [EvalM.map, hd2]
    rfl

private theorem value_aux (env : String → Option (Node F)) (num : String → String → Option F) 
    (h2 : ∀ x, num "i64" "2" = some x → x = 1 + 1) (h2' : ∀ x, num "f64" "2.0" = some x → x = 1 + 1) (ρ : String → Option F) (c : Ctx F Γ)
    (hρ : ∀ p x, ρ p = some x → ∃ n, env p = some n ∧ Gives c n x) (e : Compile.Expr) (x : F)
    (h : Denotes ρ num e x) : ∃ n, Stands env num e n ∧ Gives c n x := by
  induction h with
  | path h =>
    obtain ⟨n, hn, hd⟩ := hρ _ _ h
    exact ⟨n, .path hn, hd⟩
  | int h => exact ⟨_, .int h, .const .scalar _, rfl, rfl⟩
  | float h => exact ⟨_, .float h, .const .scalar _, rfl, rfl⟩
  | paren _ ih =>
    obtain ⟨n, hn, hd⟩ := ih
    exact ⟨n, .paren hn, hd⟩
  | add _ _ ihl ihr =>
    obtain ⟨n, hn, hd⟩ := ihl
    obtain ⟨m, hm, hd'⟩ := ihr
    exact ⟨_, .add hn hm, gives_bin hd hd' (addSpec .ss) rfl fun dl dr => ⟨.add dl dr .ss, rfl, rfl⟩⟩
  | sub _ _ ihl ihr =>
    obtain ⟨n, hn, hd⟩ := ihl
    obtain ⟨m, hm, hd'⟩ := ihr
    exact ⟨_, .sub hn hm, gives_bin hd hd' (subSpec .ss) rfl fun dl dr => ⟨.sub dl dr .ss, rfl, rfl⟩⟩
  | mul _ _ ihl ihr =>
    obtain ⟨n, hn, hd⟩ := ihl
    obtain ⟨m, hm, hd'⟩ := ihr
    exact ⟨_, .mul hn hm, gives_bin hd hd' (mulSpec .ss) rfl fun dl dr => ⟨.mul dl dr .ss, rfl, rfl⟩⟩
  | @pow l r x y hl hr ihl ihr =>
    obtain ⟨n, hn, hd⟩ := ihl
    obtain ⟨m, hm, hd'⟩ := ihr
    by_cases ht : IsTwo r
    · have hy : y = 1 + 1 := by
        rcases ht with rfl | rfl <;> cases hr
        exacts [h2 _ (by assumption), h2' _ (by assumption)]
      subst hy
      exact ⟨_, .square hn ht, gives_square hd⟩
    · exact ⟨_, .power hn hm ht, gives_bin hd hd' (fun b e => .ok (powSpec b e)) rfl
        fun dl dr => ⟨.power dl dr, rfl, rfl⟩⟩
  | square _ ht ih =>
    obtain ⟨n, hn, hd⟩ := ih
    exact ⟨_, .square hn ht, gives_square hd⟩

/-- For numbers: the expansion of an arithmetic expression, read as Rust reads it, constructs a node
which evaluates to the number that the expression denotes, when every name stands for a variable
with that value. `^` means the power throughout, also where the macro uses `Square`. No arithmetic
laws; the literals `2` and `2.0` must be the number 1 + 1 where they are numbers of the type. -/
theorem C41_meaning (env : String → Option Id) (num : String → String → Option F) 
    (h2 : ∀ x, num "i64" "2" = some x → x = 1 + 1) (h2' : ∀ x, num "f64" "2.0" = some x → x = 1 + 1) (c : Ctx F fun _ => .scalar) (e : Compile.Expr) (x : F)
    (h : Denotes (fun p => (env p).bind c) num e x) :
    ∃ ts e' n, aegir e = some ts ∧ Reads ts e' ∧
      build (fun p => (env p).map .var) num e' = some n ∧
      ∃ d : FnImpl (fun _ => .scalar) n .scalar,
        d.evaluate c = (.ok x, c) ∧ d.evaluateSpec c = (.ok (.raw x), c) := by
  obtain ⟨n, hn, d, hd⟩ := value_aux (fun p => (env p).map .var) num h2 h2' _ c (by
    intro p x hp
    obtain ⟨i, hi, hc⟩ := Option.bind_eq_some_iff.1 hp
    refine ⟨.var i, by rw [hi]; rfl, .var (Γ := fun _ => .scalar) i, ?_, ?_⟩
    · show EvalM.read i c = _
      simp only [EvalM.read, hc]
    · show EvalM.map _ (EvalM.read i) c = _
      simp only [EvalM.map, EvalM.read, hc]
      rfl) e x h
  obtain ⟨ts, e', h3, h4, h5⟩ := C41_expansion _ num e n hn
  exact ⟨ts, e', n, h3, h4, h5, d, hd⟩

end

/-- `a * ((x - 3) ^ 2)` at `a = 2`, `x = 5` denotes 8, for integers. -/
example : ∃ (num : String → String → Option ℤ) (c : Ctx ℤ fun _ => .scalar),
    (∀ x, num "i64" "2" = some x → x = 1 + 1) ∧ (∀ x, num "f64" "2.0" = some x → x = 1 + 1) ∧
    Denotes (fun p => (if p = "a" then some 0 else if p = "x" then some 1 else none).bind c) num
    (.binary .mul (.path "a") (.paren (.binary .bitXor (.paren (.binary .sub (.path "x")
      (.lit (.int "3")))) (.lit (.int "2"))))) (8 : ℤ) := by
  refine ⟨fun f t => if f = "i64" then some (if t = "3" then 3 else 2) else none,
    fun i => if i = 0 then some (2 : ℤ) else some (5 : ℤ),
    fun x h => (Option.some.inj h).symm, fun x h => by simp at h, ?_⟩
  have h := Denotes.mul (F := ℤ) (x := 2) (.path (ρ := fun p => (if p = "a" then some 0 else if
      p = "x" then some 1 else none).bind fun i => if i = 0 then some (2 : ℤ) else some 5)
      (num := fun f t => if f = "i64" then some (if t = "3" then 3 else 2) else none) (p := "a") rfl)
    (.paren (.pow (.paren (.sub (x := 5) (.path (p := "x") rfl) (.int (t := "3") rfl)))
      (.int (t := "2") rfl)))
  exact h

/-! ## Integers -/

private theorem foldAll_mem {ss ss' : List Compile.Expr} (h : foldAll ss = some ss')
    {s : Compile.Expr} (hs : s ∈ ss) : ∃ s' ∈ ss', fold s = some s' := by
  rw [foldAll_some] at h
  induction h with
  | nil => cases hs
  | cons h1 _ ih =>
    rcases List.mem_cons.1 hs with rfl | hs
    · exact ⟨_, List.mem_cons_self .., h1⟩
    · obtain ⟨s', hm, hf⟩ := ih hs
      exact ⟨s', List.mem_cons_of_mem _ hm, hf⟩

private theorem build_call {F : Type} {env : String → Option (Node F)}
    {num : String → String → Option F} {r : Compile.Expr} {m : String} {args : List Compile.Expr}
    {n : Node F} (h : build env num (.methodCall r m args) = some n) :
    ∀ s ∈ r :: args, ∃ n', build env num s = some n' := by
  intro s hs
  match args with
  | [] =>
    obtain rfl := List.mem_singleton.1 hs
    rw [build, Option.bind_eq_some_iff] at h
    exact ⟨_, h.choose_spec.1⟩
  | [a] =>
    rw [build, Option.bind_eq_some_iff] at h
    obtain ⟨n1, h1, h⟩ := h
    obtain ⟨n2, h2, -⟩ := Option.bind_eq_some_iff.1 h
    simp only [List.mem_cons, List.not_mem_nil, or_false] at hs
    rcases hs with rfl | rfl
    exacts [⟨_, h1⟩, ⟨_, h2⟩]
  | a :: b :: as => simp [build] at h

/-- Every number of the source other than the exponent in `l ^ 2` becomes a constant of the type that
its spelling gives: if the expansion is an expression over `F`, then that type is `F`. -/
theorem C41_literals {F : Type} (env : String → Option (Node F)) (num : String → String → Option F)
    (e e' : Compile.Expr) (n : Node F) (h : fold e = some e') (hb : build env num e' = some n) :
    (∀ t, Counts (.lit (.int t)) e → num "i64" t ≠ none) ∧
    ∀ t, Counts (.lit (.float t)) e → num "f64" t ≠ none := by
  have key : ∀ x f t, (∀ e', fold x = some e' → e' = .constant f t) → ∀ e, Counts x e →
      ∀ e' n, fold e = some e' → build env num e' = some n → num f t ≠ none := by
    intro x f t hx e hc
    induction hc with
    | refl =>
      intro e' n h hb hn
      rw [hx e' h, build, hn] at hb
      cases hb
    | @left op l r _ ih =>
      intro e' n h hb
      rw [fold, Option.bind_eq_some_iff] at h
      obtain ⟨m, -, h⟩ := h
      split at h
      · obtain ⟨l', hl, rfl⟩ := Option.map_eq_some_iff.1 h
        obtain ⟨n', hn'⟩ := build_call hb l' (by simp)
        exact ih _ _ hl hn'
      · rw [Option.bind_eq_some_iff] at h
        obtain ⟨r', hr, h⟩ := h
        obtain ⟨l', hl, rfl⟩ := Option.map_eq_some_iff.1 h
        obtain ⟨n', hn'⟩ := build_call hb l' (by simp)
        exact ih _ _ hl hn'
    | @right op l r ht _ ih =>
      intro e' n h hb
      rw [fold, Option.bind_eq_some_iff] at h
      obtain ⟨m, hm, h⟩ := h
      split at h
      · rename_i hq
        exact (ht ((isSquare_iff op m hm r).1 hq)).elim
      · rw [Option.bind_eq_some_iff] at h
        obtain ⟨r', hr, h⟩ := h
        obtain ⟨l', hl, rfl⟩ := Option.map_eq_some_iff.1 h
        obtain ⟨n', hn'⟩ := build_call hb r' (by simp)
        exact ih _ _ hr hn'
    | @sub s e hne hs _ ih =>
      intro e' n h hb
      cases e with
      | binary op l r => exact (hne op l r rfl).elim
      | lit | path | constant => cases hs
      | paren e =>
        obtain rfl := List.mem_singleton.1 hs
        rw [fold, Option.map_eq_some_iff] at h
        obtain ⟨e', h1, rfl⟩ := h
        exact ih _ _ h1 hb
      | unary op e =>
        rw [fold, Option.map_eq_some_iff] at h
        obtain ⟨e', h1, rfl⟩ := h
        simp [build] at hb
      | form k ss =>
        rw [fold, Option.map_eq_some_iff] at h
        obtain ⟨e', h1, rfl⟩ := h
        simp [build] at hb
      | methodCall r m args =>
        rw [fold, Option.bind_eq_some_iff] at h
        obtain ⟨r', hr, h⟩ := h
        obtain ⟨as, has, rfl⟩ := Option.map_eq_some_iff.1 h
        rcases List.mem_cons.1 hs with rfl | hs
        · obtain ⟨n', hn'⟩ := build_call hb r' (by simp)
          exact ih _ _ hr hn'
        · obtain ⟨s', hm, hs'⟩ := foldAll_mem has hs
          obtain ⟨n', hn'⟩ := build_call hb s' (by simp [hm])
          exact ih _ _ hs' hn'
  exact ⟨fun t hc => key _ "i64" t (fun e' h => by simpa [fold, eq_comm] using h) e hc _ _ h hb,
    fun t hc => key _ "f64" t (fun e' h => by simpa [fold, eq_comm] using h) e hc _ _ h hb⟩

/-- So `aegir!(x * 3)` is expanded, but is no expression over floating point numbers: the node has a
constant of type `i64` in it, and the impls of the operators demand one type. -/
theorem C41_violation_int {F : Type} (env : String → Option (Node F))
    (num : String → String → Option F) (hf : ∀ t, num "i64" t = none) (p t : String) :
    ∃ e', fold (.binary .mul (.path p) (.lit (.int t))) = some e' ∧ Reads (print e') e' ∧
      build env num e' = none := by
  refine ⟨.methodCall (.path p) "mul" [.constant "i64" t], rfl, ⟨12, fun n hn => ?_⟩, ?_⟩
  · obtain ⟨k, rfl⟩ : ∃ k, n = k + 12 := ⟨n - 12, by omega⟩
    rfl
  · by_contra hc
    obtain ⟨n, hn⟩ := Option.ne_none_iff_exists'.1 hc
    exact (C41_literals env num (.binary .mul (.path p) (.lit (.int t))) _ n rfl hn).1 t (.right (by simp) .refl) (hf t)

/-- Floating point numbers: `x * 3.5` is such an expression, and so is `x ^ 2`. -/
example : ∃ (num : String → String → Option ℝ) (n n' : Node ℝ), (∀ t, num "i64" t = none) ∧
    Stands (fun _ => some (.var 0)) num (.binary .mul (.path "x") (.lit (.float "3.5"))) n ∧
    Stands (fun _ => some (.var 0)) num (.binary .bitXor (.path "x") (.lit (.int "2"))) n' :=
  ⟨fun f _ => if f = "f64" then some 3.5 else none, _, _, fun _ => rfl,
    .mul (.path rfl) (.float rfl), .square (.path rfl) (.inl rfl)⟩

end Aegir
