import Verif.Spec.Source
/-!
# Reading source tokens
-/

namespace Aegir.Source

open Compile

/-- The level of an expression, whatever its brackets contain. -/
def Grammar.top (G : Grammar) : Compile.Expr → Nat
  | .binary op _ _ => G.result op
  | .unary _ _ => G.sign
  | _ => 4

theorem le_top {G : Grammar} {c : Cat} {ts : List Sym} {es : List Compile.Expr} (h : Derives G c ts es) :
    ∀ k e, c = .level k → es = [e] → k ≤ G.top e := by
  induction h with
  | name | int | float | paren | call | neg | binary =>
    rintro k e ⟨⟩ ⟨⟩; exact Nat.le_refl _
  | up _ ih => rintro k e ⟨⟩ ⟨⟩; exact Nat.le_of_succ_le (ih _ _ rfl rfl)
  | noArgs | arg | args => rintro k e ⟨⟩

theorem weaken {G : Grammar} {ts : List Sym} {e : Compile.Expr} {k : Nat} :
    ∀ {m : Nat}, k ≤ m → Derives G (.level m) ts [e] → Derives G (.level k) ts [e] := by
  intro m hm
  induction hm with
  | refl => exact id
  | step _ ih => exact fun h => ih h.up

/-! ## An algorithm for Rust's grammar -/

mutual

/-- Expressions of level `k`. -/
def pBin : Nat → Nat → List Sym → Option (Compile.Expr × List Sym)
  | 0, _, _ => none
  | n + 1, k, ts =>
      if 3 ≤ k then pUn n ts
      else match pBin n (k + 1) ts with
        | some (e, us) => pRest n k e us
        | none => none

/-- Further operators of level `k`. -/
def pRest : Nat → Nat → Compile.Expr → List Sym → Option (Compile.Expr × List Sym)
  | 0, _, _, _ => none
  | n + 1, k, e, .op o :: ts =>
      if rust.result o = k then
        match pBin n (k + 1) ts with
        | some (e', us) => pRest n k (.binary o e e') us
        | none => none
      else some (e, .op o :: ts)
  | _ + 1, _, e, ts => some (e, ts)

/-- Prefixes and operands. -/
def pUn : Nat → List Sym → Option (Compile.Expr × List Sym)
  | 0, _ => none
  | n + 1, .op .sub :: ts => (pUn n ts).map fun p => (.unary "-" p.1, p.2)
  | n + 1, .name s :: ts => pPost n (.path s) ts
  | n + 1, .int t :: ts => pPost n (.lit (.int t)) ts
  | n + 1, .float t :: ts => pPost n (.lit (.float t)) ts
  | n + 1, .open :: ts =>
      match pBin n 0 ts with
      | some (e, .close :: us) => pPost n (.paren e) us
      | _ => none
  | _, _ => none

/-- Method calls. -/
def pPost : Nat → Compile.Expr → List Sym → Option (Compile.Expr × List Sym)
  | 0, _, _ => none
  | n + 1, e, .dot :: .name m :: .open :: ts =>
      match pArgs n ts with
      | some (args, us) => pPost n (.methodCall e m args) us
      | none => none
  | _, e, ts => some (e, ts)

/-- Arguments and the closing bracket. -/
def pArgs : Nat → List Sym → Option (List Compile.Expr × List Sym)
  | 0, _ => none
  | _, .close :: ts => some ([], ts)
  | n + 1, ts =>
      match pBin n 0 ts with
      | some (e, .comma :: us) => (pArgs n us).map fun p => (e :: p.1, p.2)
      | some (e, .close :: us) => some ([e], us)
      | _ => none

end

/-- Equal to `r` at every sufficient depth. -/
def Ev {α : Type} (f : Nat → Option α) (r : α) : Prop := ∃ N, ∀ n ≥ N, f n = some r

theorem Ev.succ {α : Type} {f : Nat → Option α} {r : α} (h : Ev (fun n => f (n + 1)) r) : Ev f r := by
  obtain ⟨N, hN⟩ := h
  refine ⟨N + 1, fun n hn => ?_⟩
  obtain ⟨k, rfl⟩ : ∃ k, n = k + 1 := ⟨n - 1, by omega⟩
  exact hN k (by omega)

theorem Ev.and {α β : Type} {f : Nat → Option α} {g : Nat → Option β} {r : α} {s : β}
    (h : Ev f r) (h' : Ev g s) : ∃ N, ∀ n ≥ N, f n = some r ∧ g n = some s := by
  obtain ⟨N, hN⟩ := h
  obtain ⟨M, hM⟩ := h'
  exact ⟨max N M, fun n hn => ⟨hN n (by omega), hM n (by omega)⟩⟩

theorem Ev.unique {α : Type} {f : Nat → Option α} {r s : α} (h : Ev f r) (h' : Ev f s) : r = s := by
  obtain ⟨N, hN⟩ := h.and h'
  obtain ⟨h1, h2⟩ := hN N (Nat.le_refl _)
  exact Option.some.inj (h1.symm.trans h2)

/-- No token that continues an expression at level `k` or higher. -/
def Stop (k : Nat) (ts : List Sym) : Prop :=
  (∀ us, ts ≠ .dot :: us) ∧ ∀ o us, ts = .op o :: us → rust.result o < k

theorem Stop.mono {k m : Nat} (h : k ≤ m) {ts : List Sym} (hs : Stop k ts) : Stop m ts :=
  ⟨hs.1, fun o us e => Nat.lt_of_lt_of_le (hs.2 o us e) h⟩

theorem pRest_stop {k : Nat} {ts : List Sym} (h : Stop k ts) (e : Compile.Expr) :
    Ev (fun n => pRest n k e ts) (e, ts) := by
  refine Ev.succ ⟨0, fun n _ => ?_⟩
  cases ts with
  | nil => rfl
  | cons t ts =>
    cases t with
    | op o =>
      have := h.2 o ts rfl
      simp only [pRest]
      rw [if_neg (by omega)]
    | _ => rfl

theorem pPost_stop {ts : List Sym} (h : ∀ us, ts ≠ .dot :: us) (e : Compile.Expr) :
    Ev (fun n => pPost n e ts) (e, ts) := by
  refine Ev.succ ⟨0, fun n _ => ?_⟩
  show pPost (n + 1) e ts = _
  rw [pPost]
  · intro hc; cases hc
  · intro _ m us _ hc; exact h _ hc

/-- What the algorithm does with the tokens of a derivation. -/
def Parses : Cat → List Sym → List Compile.Expr → Prop
  | .args, ts, es => ∀ rest, Ev (fun n => pArgs n (ts ++ .close :: rest)) (es, rest)
  | .level k, ts, es => ∀ e, es = [e] → ∀ rest,
      if k ≤ 2 then Stop (k + 1) rest → ∀ r, Ev (fun n => pRest n k e rest) r →
        Ev (fun n => pBin n k (ts ++ rest)) r
      else if k = 3 then (∀ us, rest ≠ .dot :: us) → Ev (fun n => pUn n (ts ++ rest)) (e, rest)
      else ∀ r, Ev (fun n => pPost n e rest) r → Ev (fun n => pUn n (ts ++ rest)) r

theorem head {G : Grammar} {c : Cat} {ts : List Sym} {es : List Compile.Expr} (h : Derives G c ts es) :
    ∀ k, c = .level k → ∃ t us, ts = t :: us ∧ t ≠ .close := by
  induction h with
  | name | int | float | paren | neg => exact fun _ _ => ⟨_, _, rfl, by simp⟩
  | call _ _ ih _ | binary _ _ _ ih _ =>
    intro _ _
    obtain ⟨t, us, rfl, ht⟩ := ih _ rfl
    exact ⟨t, _, rfl, ht⟩
  | up _ ih => exact fun _ _ => ih _ rfl
  | noArgs | arg | args => exact fun _ h => nomatch h

theorem level_stop {k : Nat} {ts : List Sym} {e : Compile.Expr} (h : Parses (.level k) ts [e])
    (hk : k ≤ 2) {rest : List Sym} (hs : Stop k rest) : Ev (fun n => pBin n k (ts ++ rest)) (e, rest) := by
  have := h e rfl rest
  rw [if_pos hk] at this
  exact this (hs.mono (Nat.le_succ k)) _ (pRest_stop hs e)

/-- Likewise from level 3. -/
theorem level3_stop {ts : List Sym} {e : Compile.Expr} (h : Parses (.level 3) ts [e])
    {rest : List Sym} (hs : ∀ us, rest ≠ .dot :: us) : Ev (fun n => pBin n 3 (ts ++ rest)) (e, rest) :=
  Ev.succ (h e rfl rest hs)

theorem parses {c : Cat} {ts : List Sym} {es : List Compile.Expr} (h : Derives rust c ts es) :
    Parses c ts es := by
  induction h with
  | name s | int s | float s =>
    rintro e ⟨⟩ rest r hr
    exact Ev.succ hr
  | @paren ts e h ih =>
    rintro e ⟨⟩ rest r hr
    refine Ev.succ ?_
    obtain ⟨N, hN⟩ := (level_stop (k := 0) ih (by omega) (rest := .close :: rest) ⟨by simp, by simp⟩).and hr
    refine ⟨N, fun n hn => ?_⟩
    simp only [List.cons_append, List.append_assoc, List.nil_append, pUn]
    rw [(hN n hn).1]
    exact (hN n hn).2
  | @call ts us e m args h1 h2 ih1 ih2 =>
    rintro e ⟨⟩ rest r hr
    have := ih1 _ rfl (.dot :: .name m :: .open :: (us ++ [.close]) ++ rest) r
    rw [List.append_assoc]
    refine this (Ev.succ ?_)
    obtain ⟨N, hN⟩ := (ih2 rest).and hr
    refine ⟨N, fun n hn => ?_⟩
    simp only [List.cons_append, List.append_assoc, List.nil_append, pPost]
    rw [(hN n hn).1]
    exact (hN n hn).2
  | @neg ts e h ih =>
    rintro e ⟨⟩ rest hs
    refine Ev.succ ?_
    obtain ⟨N, hN⟩ := ih _ rfl rest hs
    refine ⟨N, fun n hn => ?_⟩
    have := hN n hn
    simp only [List.cons_append, pUn] at this ⊢
    rw [this]
    rfl
  | @binary op ts us l r ho h1 h2 ih1 ih2 =>
    have hl : rust.left op = rust.result op := by cases op <;> rfl
    have hr : rust.right op = rust.result op + 1 := by cases op <;> rfl
    have h2' : rust.result op ≤ 2 := by cases op <;> simp [rust]
    rw [hl] at ih1
    rw [hr] at ih2
    rintro e ⟨⟩ rest
    rw [if_pos h2']
    intro hs res hres
    have h3 := ih1 l rfl (.op op :: (us ++ rest))
    rw [if_pos h2'] at h3
    have hop : Stop (rust.result op + 1) (.op op :: (us ++ rest)) :=
      ⟨by simp, by rintro o us ⟨⟩; exact Nat.lt_succ_self _⟩
    have h4 : Ev (fun n => pBin n (rust.result op + 1) (us ++ rest)) (r, rest) := by
      by_cases h : rust.result op + 1 ≤ 2
      · exact level_stop ih2 h hs
      · have h5 : rust.result op + 1 = 3 := by omega
        rw [h5] at ih2 ⊢
        exact level3_stop ih2 hs.1
    rw [List.append_assoc]
    refine h3 hop res (Ev.succ ?_)
    obtain ⟨N, hN⟩ := h4.and hres
    refine ⟨N, fun n hn => ?_⟩
    simp only [pRest, if_true]
    rw [(hN n hn).1]
    exact (hN n hn).2
  | @up k ts e h ih =>
    rintro e ⟨⟩ rest
    have hk := le_top h _ _ rfl rfl
    have htop : rust.top e ≤ 4 := by
      cases e <;> simp only [Grammar.top] <;> try decide
      rename_i op _ _
      cases op <;> simp [rust]
    by_cases h2 : k ≤ 2
    · rw [if_pos h2]
      intro hs r hr
      refine Ev.succ ?_
      have h4 : Ev (fun n => pBin n (k + 1) (ts ++ rest)) (e, rest) := by
        by_cases h : k + 1 ≤ 2
        · exact level_stop ih h hs
        · have h5 : k + 1 = 3 := by omega
          rw [h5] at ih ⊢
          exact level3_stop ih hs.1
      obtain ⟨N, hN⟩ := h4.and hr
      refine ⟨N, fun n hn => ?_⟩
      simp only [pBin]
      rw [if_neg (by omega), (hN n hn).1]
      exact (hN n hn).2
    · obtain rfl : k = 3 := by omega
      intro hs
      exact ih e rfl rest _ (pPost_stop hs e)
  | noArgs => exact fun rest => Ev.succ ⟨0, fun n _ => by simp [pArgs]⟩
  | @arg ts e h ih =>
    intro rest
    obtain ⟨t, us, rfl, ht⟩ := head h _ rfl
    refine Ev.succ ?_
    obtain ⟨N, hN⟩ := level_stop (k := 0) ih (by omega) (rest := .close :: rest) ⟨by simp, by simp⟩
    refine ⟨N, fun n hn => ?_⟩
    have := hN n hn
    simp only [List.cons_append] at this ⊢
    rw [pArgs, this]
    intro ts' hc
    exact ht (List.cons.inj hc).1
  | @args ts us e es h1 h2 ih1 ih2 =>
    intro rest
    obtain ⟨t, vs, rfl, ht⟩ := head h1 _ rfl
    refine Ev.succ ?_
    obtain ⟨N, hN⟩ := (level_stop (k := 0) ih1 (by omega) (rest := .comma :: (us ++ .close :: rest))
      ⟨by simp, by simp⟩).and (ih2 rest)
    refine ⟨N, fun n hn => ?_⟩
    have := hN n hn
    simp only [List.cons_append, List.append_assoc] at this ⊢
    rw [pArgs, this.1]
    · simp only [this.2]
      rfl
    · intro ts' hc
      exact ht (List.cons.inj hc).1

/-- Rust reads tokens in one way only. -/
theorem rust_unique {ts : List Sym} {e e' : Compile.Expr} (h : rust.Reads ts e) (h' : rust.Reads ts e') :
    e = e' := by
  have hs : Stop 0 [] := ⟨by simp, by simp⟩
  have := (level_stop (k := 0) (parses h) (by omega) hs).unique
    (level_stop (k := 0) (parses h') (by omega) hs)
  exact (Prod.mk.inj this).1

end Aegir.Source
