import Verif.Lemmas.Source
import Verif.Props.C66_Programs
/-!
# C68: how `aegir!` reads its source
-/

namespace Aegir

open Source Compile Spec

/-- Rust, and so `aegir!`, reads tokens in one way only. -/
theorem C68_unique {ts : List Sym} {e e' : Compile.Expr} (h : rust.Reads ts e) (h' : rust.Reads ts e') :
    e = e' := rust_unique h h'

/-- The levels of the operands of an expression that the grammar derives. -/
private theorem operands {G : Grammar} {c : Cat} {ts : List Sym} {es : List Compile.Expr}
    (h : Derives G c ts es) (e : Compile.Expr) (he : e ∈ es) :
    (∀ op l r, Within (.binary op l r) e → G.left op ≤ G.top l ∧ G.right op ≤ G.top r) ∧
    ∀ op x, Within (.unary op x) e → G.sign ≤ G.top x := by
  have leaf : ∀ e : Compile.Expr, e.subs = [] →
      (∀ op l r, Within (.binary op l r) e → G.left op ≤ G.top l ∧ G.right op ≤ G.top r) ∧
      ∀ op x, Within (.unary op x) e → G.sign ≤ G.top x := by
    intro e he
    refine ⟨fun op l r hw => ?_, fun op x hw => ?_⟩ <;>
    · cases hw with
      | refl => cases he
      | sub hs _ => rw [he] at hs; cases hs
  induction h generalizing e with
  | name | int | float =>
    obtain rfl := List.mem_singleton.1 he
    exact leaf _ rfl
  | paren _ ih =>
    obtain rfl := List.mem_singleton.1 he
    have := ih _ (List.mem_singleton.2 rfl)
    refine ⟨fun op l r hw => ?_, fun op x hw => ?_⟩ <;>
    · cases hw with
      | sub hs hw =>
        obtain rfl := List.mem_singleton.1 hs
        first | exact this.1 _ _ _ hw | exact this.2 _ _ hw
  | call _ _ ih1 ih2 =>
    obtain rfl := List.mem_singleton.1 he
    refine ⟨fun op l r hw => ?_, fun op x hw => ?_⟩ <;>
    · cases hw with
      | sub hs hw =>
        rcases List.mem_cons.1 hs with rfl | hs
        · first
            | exact (ih1 _ (List.mem_singleton.2 rfl)).1 _ _ _ hw
            | exact (ih1 _ (List.mem_singleton.2 rfl)).2 _ _ hw
        · first | exact (ih2 _ hs).1 _ _ _ hw | exact (ih2 _ hs).2 _ _ hw
  | neg h ih =>
    obtain rfl := List.mem_singleton.1 he
    have := ih _ (List.mem_singleton.2 rfl)
    refine ⟨fun op l r hw => ?_, fun op x hw => ?_⟩
    · cases hw with
      | sub hs hw =>
        obtain rfl := List.mem_singleton.1 hs
        exact this.1 _ _ _ hw
    · cases hw with
      | refl => exact le_top h _ _ rfl rfl
      | sub hs hw =>
        obtain rfl := List.mem_singleton.1 hs
        exact this.2 _ _ hw
  | binary _ h1 h2 ih1 ih2 =>
    obtain rfl := List.mem_singleton.1 he
    have i1 := ih1 _ (List.mem_singleton.2 rfl)
    have i2 := ih2 _ (List.mem_singleton.2 rfl)
    refine ⟨fun op l r hw => ?_, fun op x hw => ?_⟩
    · cases hw with
      | refl => exact ⟨le_top h1 _ _ rfl rfl, le_top h2 _ _ rfl rfl⟩
      | sub hs hw =>
        simp only [Expr.subs, List.mem_cons, List.not_mem_nil, or_false] at hs
        rcases hs with rfl | rfl
        exacts [i1.1 _ _ _ hw, i2.1 _ _ _ hw]
    · cases hw with
      | sub hs hw =>
        simp only [Expr.subs, List.mem_cons, List.not_mem_nil, or_false] at hs
        rcases hs with rfl | rfl
        exacts [i1.2 _ _ hw, i2.2 _ _ hw]
  | up _ ih => exact ih e he
  | noArgs => cases he
  | arg _ ih => exact ih e he
  | args _ _ ih1 ih2 =>
    rcases List.mem_cons.1 he with rfl | he
    · exact ih1 _ (List.mem_singleton.2 rfl)
    · exact ih2 _ he

private theorem bracketed_sub {e s : Compile.Expr} (h : Bracketed e) (hs : s ∈ e.subs) : Bracketed s :=
  ⟨fun op l r hw => h.1 op l r (.sub hs hw), fun op x hw => h.2 op x (.sub hs hw)⟩

private theorem tops {e : Compile.Expr} (h : ¬ IsPower e) : 1 ≤ rust.top e ∧
    (1 ≤ maths.top e → 2 ≤ rust.top e) ∧ (2 ≤ maths.top e → 3 ≤ rust.top e) := by
  cases e with
  | binary op l r =>
    cases op with
    | bitXor => exact (h ⟨l, r, rfl⟩).elim
    | _ => simp [Grammar.top, maths, rust]
  | _ => simp [Grammar.top, maths, rust]

private theorem top4 {e : Compile.Expr} (h : 4 ≤ maths.top e) : rust.top e = 4 := by
  cases e with
  | binary op l r => cases op <;> simp [Grammar.top, maths] at h
  | unary => simp [Grammar.top, maths] at h
  | _ => rfl

private theorem to_rust {c : Cat} {ts : List Sym} {es : List Compile.Expr} (h : Derives maths c ts es)
    (hb : ∀ e ∈ es, Bracketed e) :
    match c with
    | .args => Derives rust .args ts es
    | .level _ => ∀ e, es = [e] → Derives rust (.level (rust.top e)) ts [e] := by
  induction h with
  | name s => rintro e ⟨⟩; exact .name s
  | int s => rintro e ⟨⟩; exact .int s
  | float s => rintro e ⟨⟩; exact .float s
  | @paren ts e h ih =>
    rintro e ⟨⟩
    exact .paren (weaken (Nat.zero_le _) (ih (by
      simpa using bracketed_sub (hb _ (List.mem_singleton.2 rfl)) (by simp [Expr.subs])) e rfl))
  | @call ts us e m args h1 h2 ih1 ih2 =>
    rintro e ⟨⟩
    have hb' := hb _ (List.mem_singleton.2 rfl)
    have he := ih1 (by simpa using bracketed_sub hb' (by simp [Expr.subs])) _ rfl
    rw [top4 (le_top h1 _ _ rfl rfl)] at he
    exact .call he (ih2 fun e he => bracketed_sub hb' (by simp [Expr.subs, he]))
  | @neg ts e h ih =>
    rintro e ⟨⟩
    have hb' := hb _ (List.mem_singleton.2 rfl)
    have he := ih (by simpa using bracketed_sub hb' (by simp [Expr.subs])) _ rfl
    exact .neg (weaken ((tops (hb'.2 _ _ (.refl _))).2.2 (le_top h _ _ rfl rfl)) he)
  | @binary op ts us l r ho h1 h2 ih1 ih2 =>
    rintro e ⟨⟩
    have hb' := hb _ (List.mem_singleton.2 rfl)
    have hl := ih1 (by simpa using bracketed_sub hb' (by simp [Expr.subs])) _ rfl
    have hr := ih2 (by simpa using bracketed_sub hb' (by simp [Expr.subs])) _ rfl
    obtain ⟨hpl, hpr⟩ := hb'.1 _ _ _ (.refl _)
    have ml := le_top h1 _ _ rfl rfl
    have mr := le_top h2 _ _ rfl rfl
    have tl := tops hpl
    have tr := tops hpr
    refine .binary ho (weaken ?_ hl) (weaken ?_ hr)
    · cases op <;> simp only [maths, rust] at ml ⊢ <;>
        first | exact Nat.zero_le _ | exact tl.1 | exact tl.2.1 ml
    · cases op <;> simp only [maths, rust] at mr ⊢ <;>
        first | exact tr.1 | exact tr.2.1 mr | exact tr.2.2 mr
  | up _ ih => exact ih hb
  | noArgs => exact .noArgs
  | arg h ih => exact .arg (weaken (Nat.zero_le _) (ih hb _ rfl))
  | args h1 h2 ih1 ih2 =>
    exact .args (weaken (Nat.zero_le _) (ih1 (fun e he => hb e (by simp_all)) _ rfl))
      (ih2 fun e he => hb e (by simp_all))

/-- `aegir!` reads tokens the way mathematics does exactly if powers are not operands without
brackets. -/
theorem C68_agrees_iff_partial {ts : List Sym} {e : Compile.Expr} (h : maths.Reads ts e) :
    rust.Reads ts e ↔ Bracketed e := by
  constructor
  · intro h'
    obtain ⟨m1, -⟩ := operands h e (List.mem_singleton.2 rfl)
    obtain ⟨r1, r2⟩ := operands h' e (List.mem_singleton.2 rfl)
    refine ⟨fun op l r hw => ⟨?_, ?_⟩, fun op x hw => ?_⟩
    · rintro ⟨a, b, rfl⟩
      have h1 := (m1 _ _ _ hw).1
      have h2 := (r1 _ _ _ hw).1
      cases op <;> simp [Grammar.top, maths, rust] at h1 h2
    · rintro ⟨a, b, rfl⟩
      have h2 := (r1 _ _ _ hw).2
      cases op <;> simp [Grammar.top, rust] at h2
    · rintro ⟨a, b, rfl⟩
      have h2 := r2 _ _ hw
      simp [Grammar.top, rust] at h2
  · intro hb
    exact weaken (Nat.zero_le _) (to_rust h (by simpa using hb) e rfl)

/-- `(x - y) ^ 2.0` -/
private def toks68 : List Sym :=
  [.open, .name "x", .op .sub, .name "y", .close, .op .bitXor, .float "2.0"]

private def expr68 : Compile.Expr :=
  .binary .bitXor (.paren (.binary .sub (.path "x") (.path "y"))) (.lit (.float "2.0"))

/-- `(x - y) ^ 2.0`, as in the README, is read as mathematics does. -/
private theorem reads68 : maths.Reads toks68 expr68 ∧ Bracketed expr68 := by
  have hx : Derives maths (.level 0) [.name "x", .op .sub, .name "y"]
      [.binary .sub (.path "x") (.path "y")] :=
    .binary (op := .sub) (by simp) (weaken (Nat.zero_le 4) (.name "x"))
      (weaken (m := 4) (by simp [maths]) (.name "y"))
  have h : maths.Reads toks68 expr68 :=
    weaken (m := 3) (by simp) (.binary (op := .bitXor) (by simp) (.paren hx)
      (weaken (m := 4) (by simp [maths]) (.float "2.0")))
  refine ⟨h, (C68_agrees_iff_partial h).1 ?_⟩
  have hx : Derives rust (.level 0) [.name "x", .op .sub, .name "y"]
      [.binary .sub (.path "x") (.path "y")] :=
    weaken (m := 1) (by simp) (.binary (op := .sub) (by simp)
      (weaken (m := 4) (by simp [rust]) (.name "x")) (weaken (m := 4) (by simp [rust]) (.name "y")))
  exact .binary (op := .bitXor) (by simp) (weaken (m := 4) (by simp [rust]) (.paren hx))
    (weaken (m := 4) (by simp [rust]) (.float "2.0"))

/-- In general it does not: `x ^ y + z` means `xʸ + z` in mathematics, but `aegir!` constructs
`x.pow(y.add(z))`, and nothing else. -/
theorem C68_violation {F : Type} (env : String → Option (Node F)) (num : String → String → Option F)
    (x y z : String) (nx ny nz : Node F) (hx : env x = some nx) (hy : env y = some ny)
    (hz : env z = some nz) :
    let ts : List Sym := [.name x, .op .bitXor, .name y, .op .add, .name z]
    maths.Reads ts (.binary .add (.binary .bitXor (.path x) (.path y)) (.path z)) ∧
    ∀ n, Makes env num ts n ↔ n = .power nx (.add ny nz) := by
  intro ts
  have hm : maths.Reads ts (.binary .add (.binary .bitXor (.path x) (.path y)) (.path z)) :=
    .binary (op := .add) (ts := [.name x, .op .bitXor, .name y]) (by simp)
      (weaken (m := 3) (by simp [maths]) (.binary (op := .bitXor) (ts := [.name x]) (by simp) (.name x)
        (weaken (m := 4) (by simp [maths]) (.name y))))
      (weaken (m := 4) (by simp [maths]) (.name z))
  have hr : rust.Reads ts (.binary .bitXor (.path x) (.binary .add (.path y) (.path z))) :=
    .binary (op := .bitXor) (ts := [.name x]) (by simp) (weaken (m := 4) (by simp [rust]) (.name x))
      (.binary (op := .add) (ts := [.name y]) (by simp) (weaken (m := 4) (by simp [rust]) (.name y))
        (weaken (m := 4) (by simp [rust]) (.name z)))
  have hc : Constructs env num (.binary .bitXor (.path x) (.binary .add (.path y) (.path z)))
      (.power nx (.add ny nz)) :=
    C41_expansion env num _ _ (.power (.path hx) (.add (.path hy) (.path hz)) (by simp [IsTwo]))
  refine ⟨hm, fun n => ⟨?_, ?_⟩⟩
  · rintro ⟨e, h1, h2⟩
    obtain rfl := C68_unique h1 hr
    exact constructs_unique h2 hc
  · rintro rfl
    exact ⟨_, hr, hc⟩

/-! ## Programs given by their tokens -/

private theorem makesAll {num : String → String → Option ℝ} {env env' : String → Option (Node ℝ)}
    {src : List (String × List Sym)} {bs : List (String × Compile.Expr)}
    (hb : List.Forall₂ (fun b c => b.1 = c.1 ∧ rust.Reads b.2 c.2) src bs) :
    MakesAll num env src env' ↔ Compiles num env bs env' := by
  induction hb generalizing env with
  | nil =>
    constructor
    · rintro ⟨⟩; exact .nil _
    · rintro ⟨⟩; exact .nil _
  | @cons b c _ _ h _ ih =>
    obtain ⟨p, ts⟩ := b
    obtain ⟨q, e⟩ := c
    obtain ⟨rfl, hr⟩ := h
    constructor
    · rintro ⟨⟩
      rename_i n hn hrest
      obtain ⟨e', hr', hc⟩ := hn
      obtain rfl := C68_unique hr hr'
      exact .cons hc (ih.1 hrest)
    · rintro ⟨⟩
      rename_i n hn hrest
      exact .cons ⟨_, hr, hn⟩ (ih.2 hrest)

/-- A scalar program given by its tokens, in which powers are bracketed where they are operands: it
compiles, and its value and partial derivatives are those of the function that the tokens denote when
read as mathematics reads them. -/
theorem C68_program_partial {num : String → ℝ} (h2 : num "2.0" = 2) (names : String → Option Id)
    {src : List (String × List Sym)} {bs : List (String × Compile.Expr)}
    (hsrc : List.Forall₂ (fun b c => b.1 = c.1 ∧ maths.Reads b.2 c.2 ∧ Bracketed c.2) src bs)
    {ts : List Sym} {e : Compile.Expr} (hts : maths.Reads ts e) (hbr : Bracketed e)
    {ρ : String → Option Meaning} (hb : Binds num (coords names) bs ρ) {m : Meaning}
    (he : Computes num ρ e m) :
    ∃ env n, MakesAll (floats num) (varEnv names) src env ∧ Makes env (floats num) ts n ∧
      (∀ env', MakesAll (floats num) (varEnv names) src env' → env' = env) ∧
      (∀ n', Makes env (floats num) ts n' → n' = n) ∧
      ∀ v : Point, run n (pointCtx v) = some ⟨.scalar, .ok (m.fn v)⟩ ∧
        (m.dom v → ∀ t, ∃ a : ℝ, HasDerivAt (fun s => m.fn (Function.update v t s)) a (v t) ∧
          runAdjoint n t (pointCtx v) = some ⟨.scalar, .ok a⟩) := by
  have hr : List.Forall₂ (fun b c => b.1 = c.1 ∧ rust.Reads b.2 c.2) src bs :=
    hsrc.imp fun b c h => ⟨h.1, (C68_agrees_iff_partial h.2.1).2 h.2.2⟩
  have hre := (C68_agrees_iff_partial hts).2 hbr
  obtain ⟨env, n, hc, hn⟩ := C66_compiles h2 names hb he
  refine ⟨env, n, (makesAll hr).2 hc, ⟨e, hre, hn⟩, fun env' h => compiles_unique ((makesAll hr).1 h) hc,
    ?_, fun v => ⟨C66_value h2 names hb he hc hn v, fun hv t => ?_⟩⟩
  · rintro n' ⟨e', hr', hn'⟩
    obtain rfl := C68_unique hre hr'
    exact constructs_unique hn' hn
  · obtain ⟨a, ha, hd, -⟩ := C66_derivative h2 names hb he hc hn v hv t
    exact ⟨a, ha, hd⟩

/-- At `x = 5`, `y = 2` the program `(x - y) ^ 2.0` evaluates to `9`. -/
example : ∃ n, Makes (varEnv fun p => if p = "x" then some 0 else if p = "y" then some 1 else none)
      (floats fun _ => 2) toks68 n ∧
    ∀ v : Point, v 0 = 5 → v 1 = 2 → run n (pointCtx v) = some ⟨.scalar, .ok (9 : ℝ)⟩ := by
  have he : Computes (fun _ => 2) (coords fun p => if p = "x" then some 0 else if p = "y" then some 1
      else none) expr68 ⟨fun v => (v 0 - v 1) ^ 2, fun _ => True ∧ True⟩ :=
    .square (.paren (.sub (.path (m := ⟨fun v => v 0, fun _ => True⟩) rfl)
      (.path (m := ⟨fun v => v 1, fun _ => True⟩) rfl))) (.inr rfl)
  obtain ⟨env, n, h1, h2, -, -, h3⟩ := C68_program_partial rfl _ .nil reads68.1 reads68.2 (.nil _) he
  cases h1
  refine ⟨n, h2, fun v hx hy => ?_⟩
  rw [(h3 v).1]
  simp only [hx, hy]
  norm_num

end Aegir
