import Verif.Spec.Rendering
import Mathlib.Data.List.TakeWhile
import Mathlib.Logic.Function.Basic
/-!
# Reading rendered expressions back
-/

namespace Aegir

open Spec

/-- Syntax trees of the notation. -/
inductive Syn where
  | name (s : List Char)
  | bin (o : Char) (l r : Syn)
  | dot (l r : Syn)
  | call (f : List Char) (s : Syn)
  | neg (s : Syn)
  | dbl (s : Syn)
  | exp (s : Syn)
  | sq (s : Syn)
  | abs (s : Syn)
  | subOne (s : Syn)
  | oneSub (s : Syn)
  | pow (l r : Syn)

namespace Syn

/-- Is the text bracketed inside another expression? -/
def wrapped : Syn → Bool
  | bin _ _ _ | subOne _ | oneSub _ => true
  | _ => false

/-- Brackets if necessary. -/
def wrap (w : Bool) (cs : List Char) : List Char := if w then '(' :: cs ++ [')'] else cs

/-- The text of a tree. -/
def body : Syn → List Char
  | name s => s
  | bin o l r => wrap l.wrapped l.body ++ [' ', o, ' '] ++ wrap r.wrapped r.body
  | dot l r => '⟨' :: wrap l.wrapped l.body ++ [',', ' '] ++ wrap r.wrapped r.body ++ ['⟩']
  | call f s => f ++ ['('] ++ s.body ++ [')']
  | neg s => '-' :: wrap s.wrapped s.body
  | dbl s => ['2', ' ', '∘', ' '] ++ wrap s.wrapped s.body
  | exp s => ['𝑒', '^'] ++ wrap s.wrapped s.body
  | sq s => '(' :: wrap s.wrapped s.body ++ [')', '^', '2']
  | abs s => '|' :: s.body ++ ['|']
  | subOne s => wrap s.wrapped s.body ++ [' ', '-', ' ', '1']
  | oneSub s => ['1', ' ', '-', ' '] ++ wrap s.wrapped s.body
  | pow l r => wrap l.wrapped l.body ++ ['^'] ++ wrap r.wrapped r.body

/-- The text of a tree inside another one. -/
def safe (s : Syn) : List Char := wrap s.wrapped s.body

/-- Characters of names. -/
def nameChar (c : Char) : Bool := c ∉ [' ', '(', ')', ',', '⟩', '|', '^']

/-- Characters a name can start with. -/
def startChar (c : Char) : Bool := nameChar c && c ∉ ['-', '1', '2', '⟨', '𝑒']

/-- Names as in `GoodName`. -/
def Word (s : List Char) : Prop :=
  (∀ c ∈ s, nameChar c = true) ∧ ∃ c cs, s = c :: cs ∧ startChar c = true

/-- Can be the base of a power. -/
def atom : Syn → Bool
  | neg _ | dbl _ | exp _ | pow _ _ => false
  | _ => true

/-- Names are words and bases are atoms. -/
def Valid : Syn → Prop
  | name s => Word s
  | bin o l r => o ≠ ' ' ∧ l.Valid ∧ r.Valid
  | dot l r => l.Valid ∧ r.Valid
  | call f s => Word f ∧ s.Valid
  | neg s | dbl s | exp s | sq s | abs s | subOne s | oneSub s => s.Valid
  | pow l r => l.atom ∧ l.Valid ∧ r.Valid

/-- Fuel needed. -/
def size : Syn → Nat
  | name _ => 1
  | bin _ l r | dot l r | pow l r => l.size + r.size + 4
  | call _ s | neg s | dbl s | exp s | sq s | abs s | subOne s | oneSub s => s.size + 4

/-- Strip a prefix. -/
def eat : List Char → List Char → Option (List Char)
  | [], cs => some cs
  | _ :: _, [] => none
  | p :: ps, c :: cs => if p = c then eat ps cs else none

theorem eat_append (p r : List Char) : eat p (p ++ r) = some r := by
  induction p with
  | nil => rfl
  | cons p ps ih => simp [eat, ih]

theorem eat_ne {p c : Char} (h : p ≠ c) (ps cs : List Char) : eat (p :: ps) (c :: cs) = none := by
  simp [eat, h]

/-- Result of a parser: a tree, whether it was an unbracketed operator, and the remaining input. -/
abbrev Out := Option (Syn × Bool × List Char)

/-- After an atom: maybe an exponent. -/
def tail (P : Bool → List Char → Out) (a : Syn) (r : List Char) : Out :=
  match eat ['^'] r with
  | some r => (P false r).bind fun x => some (pow a x.1, false, x.2.2)
  | none => some (a, false, r)

/-- Names and calls. -/
def word (P : Bool → List Char → Out) (cs : List Char) : Out :=
  match eat ['('] (cs.dropWhile nameChar) with
  | some r => (P true r).bind fun x => (eat [')'] x.2.2).bind fun r =>
      tail P (call (cs.takeWhile nameChar) x.1) r
  | none => tail P (name (cs.takeWhile nameChar)) (cs.dropWhile nameChar)

/-- Texts that need no brackets. -/
def closed (P : Bool → List Char → Out) (cs : List Char) : Out :=
  match eat ['-'] cs with
  | some r => (P false r).bind fun x => some (neg x.1, false, x.2.2)
  | none => match eat ['2', ' ', '∘', ' '] cs with
  | some r => (P false r).bind fun x => some (dbl x.1, false, x.2.2)
  | none => match eat ['𝑒', '^'] cs with
  | some r => (P false r).bind fun x => some (exp x.1, false, x.2.2)
  | none => match eat ['('] cs with
  | some r => (P true r).bind fun x => (eat [')'] x.2.2).bind fun r =>
      if x.2.1 then tail P x.1 r else (eat ['^', '2'] r).bind fun r => tail P (sq x.1) r
  | none => match eat ['⟨'] cs with
  | some r => (P false r).bind fun x => (eat [',', ' '] x.2.2).bind fun r =>
      (P false r).bind fun y => (eat ['⟩'] y.2.2).bind fun r => tail P (dot x.1 y.1) r
  | none => match eat ['|'] cs with
  | some r => (P true r).bind fun x => (eat ['|'] x.2.2).bind fun r => tail P (abs x.1) r
  | none => word P cs

/-- All texts. -/
def whole (P : Bool → List Char → Out) (cs : List Char) : Out :=
  match eat ['1', ' ', '-', ' '] cs with
  | some r => (P false r).bind fun x => some (oneSub x.1, true, x.2.2)
  | none => (P false cs).bind fun x =>
    match eat [' ', '-', ' ', '1'] x.2.2 with
    | some r => some (subOne x.1, true, r)
    | none => match x.2.2 with
      | ' ' :: o :: ' ' :: r => (P false r).bind fun y => some (bin o x.1 y.1, true, y.2.2)
      | r => some (x.1, false, r)

/-- The parser, with fuel. -/
def parse : Nat → Bool → List Char → Out
  | 0, _, _ => none
  | n + 1, false, cs => closed (parse n) cs
  | n + 1, true, cs => whole (parse n) cs

/-- `cs` is empty or starts with one of `ds`. -/
def Stops (ds cs : List Char) : Prop := ∀ c r, cs = c :: r → c ∈ ds

theorem Stops.eat {ds cs : List Char} (h : Stops ds cs) {p : Char} (hp : p ∉ ds) (ps : List Char) :
    Syn.eat (p :: ps) cs = none := by
  cases cs with
  | nil => rfl
  | cons c r => exact eat_ne (fun he : p = c => hp (by rw [he]; exact h c r rfl)) _ _

theorem Stops.mono {ds ds' cs : List Char} (h : Stops ds cs) (hd : ∀ c ∈ ds, c ∈ ds') :
    Stops ds' cs := fun c r hc => hd c (h c r hc)

theorem stops_cons {c : Char} {ds r : List Char} (h : c ∈ ds) : Stops ds (c :: r) := by
  intro c' r' h'
  cases h'; exact h

/-- What can follow a bracketed text. -/
abbrev afterSafe : List Char := [' ', ')', ',', '⟩', '|']
/-- What can follow an atom. -/
abbrev afterAtom : List Char := '^' :: afterSafe
/-- What can follow an unbracketed text. -/
abbrev afterText : List Char := [')', '|']

theorem takeWhile_word {s rest : List Char} (h : ∀ c ∈ s, nameChar c = true)
    (hr : Stops ('(' :: afterAtom) rest) :
    (s ++ rest).takeWhile nameChar = s ∧ (s ++ rest).dropWhile nameChar = rest := by
  have h1 : rest.takeWhile nameChar = [] ∧ rest.dropWhile nameChar = rest := by
    cases rest with
    | nil => exact ⟨rfl, rfl⟩
    | cons c r =>
      have : nameChar c = false := by
        have := hr c r rfl
        simp only [List.mem_cons, List.not_mem_nil, or_false] at this
        rcases this with rfl | rfl | rfl | rfl | rfl | rfl | rfl <;> rfl
      simp [this]
  rw [List.takeWhile_append_of_pos h, List.dropWhile_append_of_pos h, h1.1, h1.2]
  simp

theorem startChar_ne {c : Char} (h : startChar c = true) :
    '-' ≠ c ∧ '2' ≠ c ∧ '𝑒' ≠ c ∧ '(' ≠ c ∧ '⟨' ≠ c ∧ '|' ≠ c ∧ '1' ≠ c := by
  refine ⟨?_, ?_, ?_, ?_, ?_, ?_, ?_⟩ <;> · rintro rfl; revert h; decide

theorem closed_word {P : Bool → List Char → Out} {s rest : List Char} (h : Word s) :
    closed P (s ++ rest) = word P (s ++ rest) := by
  obtain ⟨-, c, cs, rfl, hc⟩ := h
  obtain ⟨h1, h2, h3, h4, h5, h6, -⟩ := startChar_ne hc
  simp only [List.cons_append, closed, eat_ne h1, eat_ne h2, eat_ne h3, eat_ne h4, eat_ne h5,
    eat_ne h6]

theorem wrap_head (w : Bool) {cs : List Char} (h : ∃ c r, cs = c :: r ∧ '1' ≠ c) :
    ∃ c r, wrap w cs = c :: r ∧ '1' ≠ c := by
  cases w with
  | true => exact ⟨'(', _, rfl, by decide⟩
  | false => exact h

/-- Bracketed texts do not start with `1`. -/
theorem safe_head {s : Syn} (h : s.Valid) : ∃ c r, s.safe = c :: r ∧ '1' ≠ c := by
  induction s with
  | name s => obtain ⟨-, c, cs, rfl, hc⟩ := h; exact ⟨c, cs, rfl, (startChar_ne hc).2.2.2.2.2.2⟩
  | call f s =>
    obtain ⟨⟨-, c, cs, rfl, hc⟩, -⟩ := h
    exact ⟨c, _, rfl, (startChar_ne hc).2.2.2.2.2.2⟩
  | pow l r ihl ihr =>
    obtain ⟨c, r', h1, h2⟩ := ihl h.2.1
    refine ⟨c, r' ++ ['^'] ++ wrap r.wrapped r.body, ?_, h2⟩
    show l.safe ++ ['^'] ++ _ = _
    rw [h1]; rfl
  | bin o l r | subOne s | oneSub s => exact ⟨'(', _, rfl, by decide⟩
  | dot l r => exact ⟨'⟨', _, rfl, by decide⟩
  | neg s => exact ⟨'-', _, rfl, by decide⟩
  | dbl s => exact ⟨'2', _, rfl, by decide⟩
  | exp s => exact ⟨'𝑒', _, rfl, by decide⟩
  | sq s => exact ⟨'(', _, rfl, by decide⟩
  | abs s => exact ⟨'|', _, rfl, by decide⟩

theorem tail_none {P : Bool → List Char → Out} {a : Syn} {r : List Char} (h : Stops afterSafe r) :
    tail P a r = some (a, false, r) := by
  rw [tail, h.eat (by decide)]

/-- Reading a text that needs no brackets. -/
def ReadSafe (s : Syn) : Prop := ∀ n rest, s.size ≤ n → Stops afterSafe rest →
  parse n false (s.safe ++ rest) = some (s, false, rest)

/-- Reading any text. -/
def ReadText (s : Syn) : Prop := ∀ n rest, (if s.wrapped then s.size ≤ n + 1 else s.size + 1 ≤ n) →
  Stops afterText rest → parse n true (s.body ++ rest) = some (s, s.wrapped, rest)

/-- Reading an atom leads to `tail`. -/
def ReadAtom (s : Syn) : Prop := ∀ n rest, s.size ≤ n + 1 → Stops afterAtom rest →
  parse (n + 1) false (s.safe ++ rest) = tail (parse n) s rest

theorem size_pos (s : Syn) : 1 ≤ s.size := by cases s <;> simp [size]

theorem ReadAtom.safe {s : Syn} (h : ReadAtom s) : ReadSafe s := by
  intro n rest hn hr
  obtain ⟨n, rfl⟩ : ∃ m, n = m + 1 := ⟨n - 1, by have := s.size_pos; omega⟩
  rw [h n rest hn (hr.mono (by simp +contextual)), tail_none hr]

theorem ReadSafe.whole {s : Syn} (hv : s.Valid) (h : ReadSafe s) {n : Nat} {rest : List Char}
    (hn : s.size ≤ n) (hr : Stops afterText rest) :
    parse (n + 1) true (s.safe ++ rest) = some (s, false, rest) := by
  have hr' : Stops afterSafe rest := hr.mono (by simp)
  obtain ⟨c, r, hc, h1⟩ := safe_head hv
  have he : eat ['1', ' ', '-', ' '] (s.safe ++ rest) = none := by
    rw [hc]; exact eat_ne h1 _ _
  simp only [parse, Syn.whole, he, h n rest hn hr', Option.bind_some,
    hr.eat (p := ' ') (by decide)]
  split
  · have := hr ' ' _ rfl
    simp at this
  · rfl

theorem ReadSafe.text {s : Syn} (hv : s.Valid) (hw : s.wrapped = false) (h : ReadSafe s) :
    ReadText s := by
  intro n rest hn hr
  rw [hw] at hn ⊢
  simp only [Bool.false_eq_true, if_false] at hn
  obtain ⟨n, rfl⟩ : ∃ m, n = m + 1 := ⟨n - 1, by have := s.size_pos; omega⟩
  have : s.body = s.safe := by simp [safe, wrap, hw]
  rw [this]
  exact h.whole hv (by omega) hr

theorem ReadText.atom {s : Syn} (hw : s.wrapped = true) (h : ReadText s) : ReadAtom s := by
  intro n rest hn hr
  have : s.safe ++ rest = '(' :: (s.body ++ ')' :: rest) := by simp [safe, wrap, hw]
  rw [this]
  simp only [parse, closed, eat_ne (p := '-') (c := '(') (by decide),
    eat_ne (p := '2') (c := '(') (by decide), eat_ne (p := '𝑒') (c := '(') (by decide)]
  have h1 := h n (')' :: rest) (by simpa [hw] using hn) (stops_cons (by simp))
  rw [hw] at h1
  simp [eat, h1]

theorem ReadText.of_child {s : Syn} (h : ReadText s) {n : Nat} {rest : List Char}
    (hn : s.size + 1 ≤ n) (hr : Stops afterText rest) :
    parse n true (s.body ++ rest) = some (s, s.wrapped, rest) :=
  h n rest (by split <;> omega) hr

/-- The parser reads back what was printed. -/
theorem parse_print (s : Syn) (h : s.Valid) :
    ReadSafe s ∧ ReadText s ∧ (s.atom = true → ReadAtom s) := by
  have ofAtom : ∀ {s : Syn}, s.Valid → s.wrapped = false → ReadAtom s →
      ReadSafe s ∧ ReadText s ∧ (s.atom = true → ReadAtom s) := fun hv hw h =>
    ⟨h.safe, h.safe.text hv hw, fun _ => h⟩
  have ofText : ∀ {s : Syn}, s.wrapped = true → ReadText s →
      ReadSafe s ∧ ReadText s ∧ (s.atom = true → ReadAtom s) := fun hw h =>
    ⟨(h.atom hw).safe, h, fun _ => h.atom hw⟩
  have ofSafe : ∀ {s : Syn}, s.Valid → s.wrapped = false → s.atom = false → ReadSafe s →
      ReadSafe s ∧ ReadText s ∧ (s.atom = true → ReadAtom s) := fun hv hw ha h =>
    ⟨h, h.text hv hw, fun h' => by simp [ha] at h'⟩
  induction s with
  | name s =>
    refine ofAtom h rfl fun n rest hn hr => ?_
    show closed (parse n) (s ++ rest) = _
    obtain ⟨h1, h2⟩ := takeWhile_word h.1 (hr.mono (ds' := '(' :: afterAtom) (by simp +contextual))
    rw [closed_word h, word, h1, h2, hr.eat (by decide)]
  | call f s ih =>
    refine ofAtom h rfl fun n rest hn hr => ?_
    have he : (call f s).safe ++ rest = f ++ '(' :: (s.body ++ ')' :: rest) := by
      simp [safe, wrap, wrapped, body]
    rw [he]
    show closed (parse n) _ = _
    obtain ⟨h1, h2⟩ := takeWhile_word (rest := '(' :: (s.body ++ ')' :: rest)) h.1.1
      (stops_cons (by simp))
    have h3 := (ih h.2).2.1.of_child (n := n) (rest := ')' :: rest)
      (by simp only [size] at hn; omega) (stops_cons (by simp))
    rw [closed_word h.1, word, h1, h2]
    simp [eat, h3]
  | dot l r ihl ihr =>
    refine ofAtom h rfl fun n rest hn hr => ?_
    have he : (dot l r).safe ++ rest =
        '⟨' :: (l.safe ++ ',' :: ' ' :: (r.safe ++ '⟩' :: rest)) := by
      simp [safe, wrap, wrapped, body]
    rw [he]
    have h1 := (ihl h.1).1 n (',' :: ' ' :: (r.safe ++ '⟩' :: rest))
      (by simp only [size] at hn; omega) (stops_cons (by simp))
    have h2 := (ihr h.2).1 n ('⟩' :: rest)
      (by simp only [size] at hn; omega) (stops_cons (by simp))
    simp [parse, closed, eat, h1, h2]
  | sq s ih =>
    refine ofAtom h rfl fun n rest hn hr => ?_
    have he : (sq s).safe ++ rest = '(' :: (s.safe ++ ')' :: '^' :: '2' :: rest) := by
      simp [safe, wrap, wrapped, body]
    rw [he]
    obtain ⟨n, rfl⟩ : ∃ m, n = m + 1 := ⟨n - 1, by simp only [size] at hn; omega⟩
    have h1 := ReadSafe.whole (s := s) h (ih h).1 (n := n) (rest := ')' :: '^' :: '2' :: rest)
      (by simp only [size] at hn; omega) (stops_cons (by simp))
    rw [parse]
    simp [closed, eat, h1]
  | abs s ih =>
    refine ofAtom h rfl fun n rest hn hr => ?_
    have he : (abs s).safe ++ rest = '|' :: (s.body ++ '|' :: rest) := by
      simp [safe, wrap, wrapped, body]
    rw [he]
    have h1 := (ih h).2.1.of_child (n := n) (rest := '|' :: rest)
      (by simp only [size] at hn; omega) (stops_cons (by simp))
    simp [parse, closed, eat, h1]
  | neg s ih =>
    refine ofSafe h rfl rfl fun n rest hn hr => ?_
    obtain ⟨n, rfl⟩ : ∃ m, n = m + 1 := ⟨n - 1, by simp only [size] at hn; omega⟩
    have he : (neg s).safe ++ rest = '-' :: (s.safe ++ rest) := by
      simp [safe, wrap, wrapped, body]
    rw [he]
    have h1 := (ih h).1 n rest (by simp only [size] at hn; omega) hr
    simp [parse, closed, eat, h1]
  | dbl s ih =>
    refine ofSafe h rfl rfl fun n rest hn hr => ?_
    obtain ⟨n, rfl⟩ : ∃ m, n = m + 1 := ⟨n - 1, by simp only [size] at hn; omega⟩
    have he : (dbl s).safe ++ rest = '2' :: ' ' :: '∘' :: ' ' :: (s.safe ++ rest) := by
      simp [safe, wrap, wrapped, body]
    rw [he]
    have h1 := (ih h).1 n rest (by simp only [size] at hn; omega) hr
    simp [parse, closed, eat, h1]
  | exp s ih =>
    refine ofSafe h rfl rfl fun n rest hn hr => ?_
    obtain ⟨n, rfl⟩ : ∃ m, n = m + 1 := ⟨n - 1, by simp only [size] at hn; omega⟩
    have he : (exp s).safe ++ rest = '𝑒' :: '^' :: (s.safe ++ rest) := by
      simp [safe, wrap, wrapped, body]
    rw [he]
    have h1 := (ih h).1 n rest (by simp only [size] at hn; omega) hr
    simp [parse, closed, eat, h1]
  | pow l r ihl ihr =>
    refine ofSafe h rfl rfl fun n rest hn hr => ?_
    obtain ⟨n, rfl⟩ : ∃ m, n = m + 1 := ⟨n - 1, by simp only [size] at hn; omega⟩
    have he : (pow l r).safe ++ rest = l.safe ++ '^' :: (r.safe ++ rest) := by
      simp [safe, wrap, wrapped, body]
    rw [he, (ihl h.2.1).2.2 h.1 n _ (by simp only [size] at hn; omega) (stops_cons (by simp))]
    have h1 := (ihr h.2.2).1 n rest (by simp only [size] at hn; omega) hr
    simp [tail, eat, h1]
  | oneSub s ih =>
    refine ofText rfl fun n rest hn hr => ?_
    simp only [wrapped, if_true, size] at hn
    obtain ⟨n, rfl⟩ : ∃ m, n = m + 1 := ⟨n - 1, by omega⟩
    have he : (oneSub s).body ++ rest = '1' :: ' ' :: '-' :: ' ' :: (s.safe ++ rest) := by
      simp [safe, body]
    rw [he]
    have h1 := (ih h).1 n rest (by omega) (hr.mono (by simp))
    simp [parse, whole, eat, h1, wrapped]
  | subOne s ih =>
    refine ofText rfl fun n rest hn hr => ?_
    simp only [wrapped, if_true, size] at hn
    obtain ⟨n, rfl⟩ : ∃ m, n = m + 1 := ⟨n - 1, by omega⟩
    have he : (subOne s).body ++ rest = s.safe ++ ' ' :: '-' :: ' ' :: '1' :: rest := by
      simp [safe, body]
    rw [he]
    have h1 := (ih h).1 n (' ' :: '-' :: ' ' :: '1' :: rest) (by omega) (stops_cons (by simp))
    obtain ⟨c, r, hc, hne⟩ := safe_head (s := s) h
    have h0 : eat ['1', ' ', '-', ' '] (s.safe ++ ' ' :: '-' :: ' ' :: '1' :: rest) = none := by
      rw [hc]; exact eat_ne hne _ _
    simp only [parse, whole, h0, h1, Option.bind_some]
    simp [eat, wrapped]
  | bin o l r ihl ihr =>
    refine ofText rfl fun n rest hn hr => ?_
    simp only [wrapped, if_true, size] at hn
    obtain ⟨n, rfl⟩ : ∃ m, n = m + 1 := ⟨n - 1, by omega⟩
    have he : (bin o l r).body ++ rest = l.safe ++ ' ' :: o :: ' ' :: (r.safe ++ rest) := by
      simp [safe, body]
    rw [he]
    have h1 := (ihl h.2.1).1 n (' ' :: o :: ' ' :: (r.safe ++ rest)) (by omega)
      (stops_cons (by simp))
    have h2 := (ihr h.2.2).1 n rest (by omega) (hr.mono (by simp))
    obtain ⟨c, r1, hc, hne⟩ := safe_head h.2.1
    obtain ⟨c', r2, hc', hne'⟩ := safe_head h.2.2
    have h0 : eat ['1', ' ', '-', ' '] (l.safe ++ ' ' :: o :: ' ' :: (r.safe ++ rest)) = none := by
      rw [hc]; exact eat_ne hne _ _
    have h3 : eat [' ', '-', ' ', '1'] (' ' :: o :: ' ' :: (r.safe ++ rest)) = none := by
      rw [hc']; simp [eat, hne']
    simp only [parse, whole, h0, h1, h3, Option.bind_some]
    simp [h2, wrapped]

/-- Trees with the same text are equal. -/
theorem body_inj {s t : Syn} (hs : s.Valid) (ht : t.Valid) (h : s.body = t.body) : s = t := by
  have h1 := (parse_print s hs).2.1.of_child (n := s.size + t.size + 1) (rest := []) (by omega)
    (fun _ _ h => by cases h)
  have h2 := (parse_print t ht).2.1.of_child (n := s.size + t.size + 1) (rest := []) (by omega)
    (fun _ _ h => by cases h)
  rw [h, h2] at h1
  simp only [Option.some.injEq, Prod.mk.injEq] at h1
  exact h1.1.symm

end Syn

section
variable {F : Type} (idText : Id → String)

/-- Text of the operators that are rendered as calls. -/
def UnOp.callName : UnOp → List Char
  | .dirac => ['δ']
  | .sign => ['s', 'g', 'n']
  | .ln => ['l', 'n']
  | .sigmoid => ['σ']
  | .gamma => ['Γ']
  | .digamma => ['ψ']
  | .logGamma => ['l', 'n', 'Γ']
  | .erf => ['e', 'r', 'f']
  | .cos => ['c', 'o', 's']
  | .cosh => ['c', 'o', 's', 'h']
  | .acos => ['a', 'c', 'o', 's']
  | .acosh => ['a', 'c', 'o', 's', 'h']
  | .sin => ['s', 'i', 'n']
  | .sinh => ['s', 'i', 'n', 'h']
  | .asinh => ['a', 's', 'i', 'n', 'h']
  | .tan => ['t', 'a', 'n']
  | .tanh => ['t', 'a', 'n', 'h']
  | .atan => ['a', 't', 'a', 'n']
  | .atanh => ['a', 't', 'a', 'n', 'h']
  | _ => []

/-- Inverse of `callName`. -/
def UnOp.ofName (s : List Char) : Option UnOp :=
  [UnOp.dirac, .sign, .ln, .sigmoid, .gamma, .digamma, .logGamma, .erf, .cos, .cosh, .acos, .acosh,
    .sin, .sinh, .asinh, .tan, .tanh, .atan, .atanh].find? fun op => op.callName == s

/-- Syntax of a unary operator. -/
def UnOp.syn : UnOp → Syn → Syn
  | .negate, s => .neg s
  | .double, s => .dbl s
  | .exp, s => .exp s
  | .square, s => .sq s
  | .abs, s => .abs s
  | .subOne, s => .subOne s
  | .oneSub, s => .oneSub s
  | op, s => .call op.callName s

/-- Syntax of an expression. -/
def Node.syn : Node F → Syn
  | .var i => .name (idText i).toList
  | .add l r => .bin '+' l.syn r.syn
  | .sub l r => .bin '-' l.syn r.syn
  | .mul l r => .bin '∘' l.syn r.syn
  | .div l r => .bin '/' l.syn r.syn
  | .power l r => .pow l.syn r.syn
  | .contract 0 l r => .bin '⊗' l.syn r.syn
  | .contract 1 l r => .dot l.syn r.syn
  | .contract 2 l r => .bin ':' l.syn r.syn
  | .un op n => op.syn n.syn
  | _ => .name []

/-- Back from syntax to expressions. -/
noncomputable def Node.ofSyn (F : Type) : Syn → Option (Node F)
  | .name s => some (.var (Function.invFun (fun i => (idText i).toList) s))
  | .bin o l r => (ofSyn F l).bind fun l => (ofSyn F r).bind fun r =>
      if o = '+' then some (.add l r) else if o = '-' then some (.sub l r)
      else if o = '∘' then some (.mul l r) else if o = '/' then some (.div l r)
      else if o = '⊗' then some (.contract 0 l r) else some (.contract 2 l r)
  | .dot l r => (ofSyn F l).bind fun l => (ofSyn F r).bind fun r => some (.contract 1 l r)
  | .pow l r => (ofSyn F l).bind fun l => (ofSyn F r).bind fun r => some (.power l r)
  | .call f s => (UnOp.ofName f).bind fun op => (ofSyn F s).bind fun n => some (.un op n)
  | .neg s => (ofSyn F s).bind fun n => some (.un .negate n)
  | .dbl s => (ofSyn F s).bind fun n => some (.un .double n)
  | .exp s => (ofSyn F s).bind fun n => some (.un .exp n)
  | .sq s => (ofSyn F s).bind fun n => some (.un .square n)
  | .abs s => (ofSyn F s).bind fun n => some (.un .abs n)
  | .subOne s => (ofSyn F s).bind fun n => some (.un .subOne n)
  | .oneSub s => (ofSyn F s).bind fun n => some (.un .oneSub n)

variable {idText}

theorem ofSyn_syn (hinj : Function.Injective idText) {e : Node F} (h : Readable e) :
    Node.ofSyn idText F (e.syn idText) = some e := by
  have hinj' : Function.Injective (fun i => (idText i).toList) := fun i j hij =>
    hinj (String.toList_injective hij)
  induction e with
  | var i => simp [Node.syn, Node.ofSyn, Function.leftInverse_invFun hinj' i]
  | add l r ihl ihr | sub l r ihl ihr | mul l r ihl ihr | div l r ihl ihr =>
    simp [Node.syn, Node.ofSyn, ihl h.1, ihr h.2]
  | power l r ihl ihr => simp [Node.syn, Node.ofSyn, ihl h.2.1, ihr h.2.2]
  | contract k l r ihl ihr =>
    have hk := h.1
    match k, hk with
    | 0, _ | 1, _ | 2, _ => simp [Node.syn, Node.ofSyn, ihl h.2.1, ihr h.2.2]
  | un op n ih =>
    have ih := ih h.2
    have hop := h.1
    cases op <;> first | exact absurd hop (by decide) | simp [Node.syn, UnOp.syn, Node.ofSyn, ih]
    all_goals rfl
  | _ => exact h.elim

theorem syn_valid (hn : ∀ i, GoodName (idText i)) {e : Node F} (h : Readable e) :
    (e.syn idText).Valid ∧ (BaseOk e → (e.syn idText).atom = true) := by
  induction e with
  | var i =>
    obtain ⟨h1, c, cs, h2, h3⟩ := hn i
    refine ⟨⟨fun c hc => by simpa [Syn.nameChar] using h1 c hc, c, cs, h2, ?_⟩, fun _ => rfl⟩
    have := h1 c (by simp [h2])
    simp only [Syn.startChar, Syn.nameChar, Bool.and_eq_true, decide_eq_true_eq]
    exact ⟨this, h3⟩
  | add l r ihl ihr | sub l r ihl ihr | mul l r ihl ihr | div l r ihl ihr =>
    exact ⟨⟨by decide, (ihl h.1).1, (ihr h.2).1⟩, fun _ => rfl⟩
  | power l r ihl ihr =>
    exact ⟨⟨(ihl h.2.1).2 h.1, (ihl h.2.1).1, (ihr h.2.2).1⟩, fun hb => hb.elim⟩
  | contract k l r ihl ihr =>
    have hk := h.1
    match k, hk with
    | 0, _ => exact ⟨⟨by decide, (ihl h.2.1).1, (ihr h.2.2).1⟩, fun _ => rfl⟩
    | 1, _ => exact ⟨⟨(ihl h.2.1).1, (ihr h.2.2).1⟩, fun _ => rfl⟩
    | 2, _ => exact ⟨⟨by decide, (ihl h.2.1).1, (ihr h.2.2).1⟩, fun _ => rfl⟩
  | un op n ih =>
    have ih := (ih h.2).1
    have hop := h.1
    cases op <;> first
      | exact absurd hop (by decide)
      | exact ⟨ih, fun _ => rfl⟩
      | exact ⟨ih, fun h => h.elim⟩
      | exact ⟨⟨⟨by decide, _, _, rfl, by decide⟩, ih⟩, fun _ => rfl⟩
  | _ => exact h.elim

variable {numText : F → String}

theorem PreWrap.safe_toList (t : String) (w : Bool) :
    (PreWrap.safe ⟨t, w⟩).toList = Syn.wrap w t.toList := by
  cases w <;> simp [PreWrap.safe, PreWrap.toSafeString, Syn.wrap]

theorem toExpr_syn {e : Node F} (h : Readable e) :
    ∃ t, e.toExpr idText numText = some (.text ⟨t, (e.syn idText).wrapped⟩) ∧
      t.toList = (e.syn idText).body := by
  induction e with
  | var i => exact ⟨_, rfl, rfl⟩
  | add l r ihl ihr | sub l r ihl ihr | mul l r ihl ihr | div l r ihl ihr =>
    obtain ⟨t, ht, ht'⟩ := ihl h.1
    obtain ⟨u, hu, hu'⟩ := ihr h.2
    refine ⟨_, by simp only [Node.toExpr, ht, hu]; rfl, ?_⟩
    simp [PreWrap.safe_toList, Node.syn, Syn.body, ht', hu']
  | power l r ihl ihr =>
    obtain ⟨t, ht, ht'⟩ := ihl h.2.1
    obtain ⟨u, hu, hu'⟩ := ihr h.2.2
    refine ⟨_, by simp only [Node.toExpr, ht, hu]; rfl, ?_⟩
    simp [PreWrap.safe_toList, Node.syn, Syn.body, ht', hu']
  | contract k l r ihl ihr =>
    obtain ⟨t, ht, ht'⟩ := ihl h.2.1
    obtain ⟨u, hu, hu'⟩ := ihr h.2.2
    have hk := h.1
    match k, hk with
    | 0, _ | 1, _ | 2, _ =>
      refine ⟨_, by simp only [Node.toExpr, ht, hu]; rfl, ?_⟩
      simp [PreWrap.safe_toList, Node.syn, Syn.body, ht', hu']
  | un op n ih =>
    obtain ⟨t, ht, ht'⟩ := ih h.2
    have hop := h.1
    cases op <;> first
      | exact absurd hop (by decide)
      | (refine ⟨_, by simp only [Node.toExpr, ht]; rfl, ?_⟩
         simp [PreWrap.safe_toList, Node.syn, Syn.body, UnOp.syn, UnOp.callName, Expr.display, ht'])
  | _ => exact h.elim

/-- Readable expressions with the same text are equal. -/
theorem toExpr_inj (hinj : Function.Injective idText) (hn : ∀ i, GoodName (idText i)) {e₁ e₂ : Node F}
    (h₁ : Readable e₁) (h₂ : Readable e₂)
    (h : (e₁.toExpr idText numText).map Expr.display = (e₂.toExpr idText numText).map Expr.display) :
    e₁ = e₂ := by
  obtain ⟨t, ht, ht'⟩ := toExpr_syn (idText := idText) (numText := numText) h₁
  obtain ⟨u, hu, hu'⟩ := toExpr_syn (idText := idText) (numText := numText) h₂
  rw [ht, hu] at h
  have htu : t = u := by simpa [Expr.display] using h
  have hs := Syn.body_inj (syn_valid hn h₁).1 (syn_valid hn h₂).1 (by rw [← ht', ← hu', htu])
  have := ofSyn_syn hinj h₁
  rw [hs, ofSyn_syn hinj h₂] at this
  exact (Option.some.inj this).symm

end

end Aegir
