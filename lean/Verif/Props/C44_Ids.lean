import Verif.Spec.Ids
import Mathlib.Data.List.Nodup
/-!
# C44: identifiers are distinguished
-/

namespace Aegir

open Ids

/-! ## Parsing -/

private theorem parseDecl_iff (ts rest : List Ids.Tok) (d : Decl)
    (hr : ∀ t ts', rest = t :: ts' → t = .comma) :
    parseDecl ts = some (d, rest) ↔ ∃ ts', Written d ts' ∧ ts = ts' ++ rest := by
  constructor
  · intro h
    unfold parseDecl at h
    split at h
    · cases h; exact ⟨_, .ident _ _, rfl⟩
    · cases h; exact ⟨_, .str _ _, rfl⟩
    · cases h
    · cases h; exact ⟨_, .plain _, rfl⟩
    · cases h
  · rintro ⟨ts', h, rfl⟩
    cases h with
    | plain n =>
      cases rest with
      | nil => rfl
      | cons t r =>
        obtain rfl := hr t r rfl
        rfl
    | ident | str => rfl

private theorem parseFrom_iff (n : Nat) (ts : List Ids.Tok) (ds : List Decl) :
    parseFrom n ts = some ds ↔ ds.length ≤ n ∧ WrittenList ds ts := by
  induction n generalizing ts ds with
  | zero =>
    simp only [parseFrom, reduceCtorEq, false_iff, not_and]
    intro hl h
    cases h <;> simp at hl
  | succ n ih =>
    rw [parseFrom]
    constructor
    · intro h
      split at h
      · rename_i d hd
        cases h
        obtain ⟨ts', hw, rfl⟩ := (parseDecl_iff _ _ _ (by simp)).1 hd
        rw [List.append_nil]
        exact ⟨by simp, .one hw⟩
      · rename_i d ts1 hd
        obtain ⟨ds', h1, rfl⟩ := Option.map_eq_some_iff.1 h
        obtain ⟨ts', hw, rfl⟩ := (parseDecl_iff _ _ _ (by rintro t r h; cases h; rfl)).1 hd
        obtain ⟨h2, h3⟩ := (ih _ _).1 h1
        exact ⟨by simpa using h2, .cons hw h3⟩
      · cases h
    · rintro ⟨hl, h⟩
      cases h with
      | @one d ts hw =>
        rw [(parseDecl_iff ts [] d (by simp)).2 ⟨ts, hw, by simp⟩]
      | @cons d ds ts ts' hw hws =>
        rw [(parseDecl_iff _ (.comma :: ts') d (by rintro t r h; cases h; rfl)).2 ⟨ts, hw, rfl⟩]
        simp [(ih ts' ds).2 ⟨by simpa using hl, hws⟩]

/-- The macro reads exactly the lists of declarations `X`, `X::x`, `X::"x"` separated by commas. -/
theorem C44_parse (ts : List Ids.Tok) (ds : List Decl) : parse ts = some ds ↔ WrittenList ds ts := by
  rw [parse, parseFrom_iff]
  refine ⟨And.right, fun h => ⟨?_, h⟩⟩
  have : ∀ ds ts, WrittenList ds ts → ds.length ≤ ts.length := by
    intro ds ts h
    induction h with
    | one hw => cases hw <;> simp
    | cons hw _ ih => cases hw <;> simp <;> omega
  have := this ds ts h
  omega

example : parse [.ident "X", .colons, .ident "x", .comma, .ident "Y", .comma, .ident "Z", .colons,
    .str "ζ"] = some [⟨"X", "x"⟩, ⟨"Y", none⟩, ⟨"Z", "ζ"⟩] := rfl

/-! ## Equality -/

/-- Identifiers of one invocation can be compared, and compare equal exactly if they are the same. -/
theorem C44_eq (ds : List Decl) (d d' : Decl) (hd : d ∈ ds) (hd' : d' ∈ ds) :
    eq (expand ds) d.name d'.name = some (decide (d.name = d'.name)) := by
  by_cases h : d.name = d'.name
  · have : Item.struct d'.name ∈ expand ds := by
      rw [expand, List.mem_flatMap]
      exact ⟨d', hd', by simp [items]⟩
    simp [eq, h, this]
  · rw [eq, if_neg h]
    have hm : Item.partialEq d.name d'.name false ∈ expand ds := by
      rw [expand, List.mem_flatMap]
      refine ⟨d, hd, ?_⟩
      simp only [items, List.mem_append, List.mem_map, List.mem_filter]
      exact .inr ⟨d', ⟨hd', by simpa using Ne.symm h⟩, rfl⟩
    have hall : ∀ a b r, Item.partialEq a b r ∈ expand ds → r = false := by
      intro a b r hm
      rw [expand, List.mem_flatMap] at hm
      obtain ⟨d0, _, hm⟩ := hm
      simp only [items, List.mem_append, List.mem_cons, reduceCtorEq, List.not_mem_nil, or_self,
        false_or, List.mem_map] at hm
      obtain ⟨_, _, hm⟩ := hm
      cases hm
      rfl
    rw [show decide (d.name = d'.name) = false by simpa using h]
    generalize hg : (fun i : Item => match i with
      | .partialEq a b r => if a = d.name ∧ b = d'.name then some r else none
      | _ => none) = g
    cases hf : (expand ds).findSome? g with
    | none =>
      rw [List.findSome?_eq_none_iff] at hf
      have := hf _ hm
      rw [← hg] at this
      simp at this
    | some r =>
      obtain ⟨i, hi, hr⟩ := List.exists_of_findSome?_eq_some hf
      rw [← hg] at hr
      cases i with
      | partialEq a b r' =>
        have := hall _ _ _ hi
        simp only at hr
        split_ifs at hr
        cases hr
        rw [this]
      | _ => cases hr

private theorem mem_partialEq (ds : List Decl) (d : Decl) (a b : String) (r : Bool) :
    Item.partialEq a b r ∈ items ds d →
      a = d.name ∧ b ≠ d.name ∧ b ∈ ds.map Decl.name ∧ r = false := by
  intro hm
  simp only [items, List.mem_append, List.mem_cons, reduceCtorEq, List.not_mem_nil, or_self,
    false_or, List.mem_map, List.mem_filter] at hm
  obtain ⟨d', ⟨hd', hne⟩, hm⟩ := hm
  cases hm
  exact ⟨rfl, by simpa using hne, List.mem_map_of_mem hd', rfl⟩

/-- The type that an item is about. -/
private def owner : Item → String
  | .struct n | .identifier n | .display n _ | .partialEq n _ _ => n

private theorem owner_items (ds : List Decl) (d : Decl) (i : Item) (h : i ∈ items ds d) :
    owner i = d.name := by
  simp only [items, List.mem_append, List.mem_cons, List.not_mem_nil, or_false, List.mem_map] at h
  rcases h with (rfl | rfl | rfl) | ⟨_, _, rfl⟩ <;> rfl

/-- The generated items do not overlap: no item is generated twice, and no impl of `PartialEq` is
generated for a pair of equal types (for which there is the derived one). -/
theorem C44_coherent (ds : List Decl) (hn : (ds.map Decl.name).Nodup) :
    (expand ds).Nodup ∧ ∀ a b r, Item.partialEq a b r ∈ expand ds → a ≠ b := by
  constructor
  · rw [expand, List.flatMap, List.nodup_flatten]
    constructor
    · intro l hl
      obtain ⟨d, hd, rfl⟩ := List.mem_map.1 hl
      rw [items, List.nodup_append]
      refine ⟨by simp, ?_, ?_⟩
      · have h2 : ((ds.filter fun d' => d'.name ≠ d.name).map Decl.name).Nodup :=
          hn.sublist (List.filter_sublist.map _)
        have h3 := h2.map (f := fun b => Item.partialEq d.name b false)
          (fun x y h => by cases h; rfl)
        rwa [List.map_map] at h3
      · intro i hi j hj hij
        subst hij
        obtain ⟨_, _, rfl⟩ := List.mem_map.1 hj
        simp at hi
    · rw [List.pairwise_map]
      rw [List.Nodup, List.pairwise_map] at hn
      refine hn.imp ?_
      intro d d' hne i hi hj
      exact hne ((owner_items _ _ _ hi).symm.trans (owner_items _ _ _ hj))
  · intro a b r hm
    rw [expand, List.mem_flatMap] at hm
    obtain ⟨d0, _, hm⟩ := hm
    obtain ⟨rfl, h, _⟩ := mem_partialEq _ _ _ _ _ hm
    exact h.symm

example : eq (expand [⟨"X", "x"⟩, ⟨"Y", none⟩]) "X" "Y" = some false ∧
    eq (expand [⟨"X", "x"⟩, ⟨"Y", none⟩]) "Y" "Y" = some true := by decide

/-- Identifiers of different invocations cannot be compared at all. -/
theorem C44_foreign (ds : List Decl) (s t : String) (hst : s ≠ t)
    (ht : t ∉ ds.map Decl.name) : eq (expand ds) s t = none := by
  rw [eq, if_neg hst, List.findSome?_eq_none_iff]
  intro i hi
  cases i with
  | partialEq a b r =>
    rw [expand, List.mem_flatMap] at hi
    obtain ⟨d0, _, hm⟩ := hi
    obtain ⟨_, _, h, _⟩ := mem_partialEq _ _ _ _ _ hm
    refine if_neg ?_
    rintro ⟨_, rfl⟩
    exact ht h
  | _ => rfl

example : eq (expand [⟨"X", "x"⟩]) "X" "Y" = none := C44_foreign _ _ _ (by decide) (by decide)

/-! ## Display -/

private theorem format_length (cs out : List Char) (h : format cs = some out) :
    out.length ≤ cs.length := by
  induction cs using format.induct generalizing out with
  | case1 => cases h; exact Nat.le_refl _
  | case2 cs ih | case3 cs ih =>
    obtain ⟨o, h1, rfl⟩ := Option.map_eq_some_iff.1 (by simpa only [format] using h)
    have := ih _ h1
    simp only [List.length_cons]; omega
  | case4 cs hn => rw [format] at h <;> simp_all
  | case5 cs hn => rw [format] at h <;> simp_all
  | case6 c cs h1 h2 h3 h4 ih =>
    rw [format] at h
    · obtain ⟨o, h1, rfl⟩ := Option.map_eq_some_iff.1 h
      have := ih _ h1
      simpa using this
    all_goals simp_all

private theorem format_self_iff (cs : List Char) :
    format cs = some cs ↔ '{' ∉ cs ∧ '}' ∉ cs := by
  induction cs using format.induct with
  | case1 => simp [format]
  | case2 cs ih | case3 cs ih =>
    rw [format]
    simp only [Option.map_eq_some_iff, List.cons.injEq, true_and, List.mem_cons, true_or,
      not_true_eq_false, false_and, and_false, iff_false]
    rintro ⟨o, h1, rfl⟩
    have := format_length _ _ h1
    rw [List.length_cons] at this
    omega
  | case4 cs hn => rw [format] <;> simp_all
  | case5 cs hn => rw [format] <;> simp_all
  | case6 c cs h1 h2 h3 h4 ih =>
    have e1 : c ≠ '{' := by rintro rfl; simp_all
    have e2 : c ≠ '}' := by rintro rfl; simp_all
    rw [format]
    · simp only [Option.map_eq_some_iff, List.cons.injEq, true_and, exists_eq_right, ih,
        List.mem_cons, not_or]
      exact ⟨fun h => ⟨⟨e1.symm, h.1⟩, e2.symm, h.2⟩, fun h => ⟨h.1.2, h.2.2⟩⟩
    all_goals simp_all

private theorem display_eq (ds : List Decl) (hn : (ds.map Decl.name).Nodup) (d : Decl)
    (hd : d ∈ ds) :
    display (expand ds) d.name = (format d.format.toList).map String.ofList := by
  generalize hg : (fun i : Item => match i with
    | .display a f => if a = d.name then some f else none
    | _ => none) = g
  have hdisp : display (expand ds) d.name =
      ((expand ds).findSome? g).bind fun f => (format f.toList).map String.ofList := by
    rw [← hg]
    rfl
  rw [hdisp]
  have hm : Item.display d.name d.format ∈ expand ds := by
    rw [expand, List.mem_flatMap]
    exact ⟨d, hd, by simp [items]⟩
  cases hf : (expand ds).findSome? g with
  | none =>
    rw [List.findSome?_eq_none_iff] at hf
    have := hf _ hm
    rw [← hg] at this
    simp at this
  | some r =>
    obtain ⟨i, hi, hr⟩ := List.exists_of_findSome?_eq_some hf
    rw [← hg] at hr
    cases i with
    | display a f =>
      simp only at hr
      split_ifs at hr with ha
      cases hr
      rw [expand, List.mem_flatMap] at hi
      obtain ⟨d0, hd0, hi⟩ := hi
      have ho : a = d0.name := owner_items _ _ _ hi
      obtain rfl : d0 = d := List.inj_on_of_nodup_map hn hd0 hd (ho.symm.trans ha)
      simp only [items, List.mem_append, List.mem_cons, reduceCtorEq, false_or, List.not_mem_nil,
        or_false, Item.display.injEq, List.mem_map, and_false, exists_false] at hi
      rw [hi.2]
      rfl
    | _ => cases hr

/-- An identifier with a symbol displays that symbol exactly if the symbol contains no braces.

Full statement: every identifier displays its symbol, or its name if it has none. Missing: symbols
with braces (`C44_violation_braces`) and identifiers without symbol (`C44_violation_name`). -/
theorem C44_display_partial (ds : List Decl) (hn : (ds.map Decl.name).Nodup) (d : Decl)
    (hd : d ∈ ds) (s : String) (hs : d.symbol = some s) :
    display (expand ds) d.name = some d.text ↔ Braceless s := by
  rw [display_eq ds hn d hd, Braceless, ← format_self_iff]
  simp only [Decl.format, Decl.text, hs, Option.getD_some, Option.map_eq_some_iff]
  constructor
  · rintro ⟨o, h, e⟩
    rw [h, ← e, String.toList_ofList]
  · intro h
    exact ⟨_, h, String.ofList_toList⟩

example : display (expand [⟨"X", "x'"⟩, ⟨"Y", none⟩]) "X" = some "x'" := by decide

/-- An identifier without symbol displays `type_id` whatever its name, hence never its name, unless
that is its name. -/
theorem C44_violation_name (ds : List Decl) (hn : (ds.map Decl.name).Nodup) (d : Decl)
    (hd : d ∈ ds) (hs : d.symbol = none) :
    display (expand ds) d.name = some "type_id" ∧
      (d.name ≠ "type_id" → display (expand ds) d.name ≠ some d.text) := by
  have h : display (expand ds) d.name = some "type_id" := by
    rw [display_eq ds hn d hd, Decl.format, hs]
    decide
  refine ⟨h, fun hne => ?_⟩
  rw [h, Decl.text, hs]
  simpa using Ne.symm hne

/-- Two identifiers without symbol are different but display alike. -/
theorem C44_violation_alike :
    let is := expand [⟨"X", none⟩, ⟨"Y", none⟩]
    eq is "X" "Y" = some false ∧ display is "X" = display is "Y" ∧ display is "X" ≠ some "X" := by
  decide

/-- Symbols are taken as format strings: doubled braces are merged, and single braces are not text. -/
theorem C44_violation_braces :
    display (expand [⟨"X", "x{{1}}"⟩]) "X" = some "x{1}" ∧
      display (expand [⟨"X", "x{1}"⟩]) "X" = none := by
  decide

/-! ## The built-in identifiers -/

/-- The built-in identifiers have pairwise distinct names and display pairwise distinct symbols,
each its declared one. -/
theorem C44_builtin :
    (builtin.map Decl.name).Nodup ∧
      (∀ d ∈ builtin, display (expand builtin) d.name = some d.text) ∧
      (builtin.map fun d => display (expand builtin) d.name).Nodup := by
  have hn : (builtin.map Decl.name).Nodup := by decide
  have h1 : ∀ d ∈ builtin, display (expand builtin) d.name = some d.text := by
    intro d hd
    have hb : ∀ d ∈ builtin, ∃ s, d.symbol = some s ∧ '{' ∉ s.toList ∧ '}' ∉ s.toList := by
      simp [builtin]
    obtain ⟨s, hs, hb⟩ := hb d hd
    exact (C44_display_partial builtin hn d hd s hs).2 hb
  refine ⟨hn, h1, ?_⟩
  rw [List.map_congr_left (g := fun d => some d.text) h1]
  decide

/-- The `n` characters from the code point `k` on. -/
private def letters (k n : Nat) : List String :=
  (List.range n).map fun i => String.singleton (Char.ofNat (k + i))

/-- The built-in identifiers are the capital letters of the Latin alphabet, displayed as the small
ones, and the names of the Greek letters, displayed as the characters from U+03B1 to U+03C9 with the
exception of U+03C5. -/
theorem C44_letters :
    builtin.map Decl.name = letters 0x41 26 ++
      ["Alpha", "Beta", "Gamma", "Delta", "Epsilon", "Zeta", "Eta", "Theta", "Iota", "Kappa", "Lambda",
        "Mu", "Nu", "Xi", "Omicron", "Pi", "Rho", "Sigma", "Tau", "Upsilon", "Phi", "Chi", "Psi",
        "Omega"] ∧
      (builtin.map fun d => display (expand builtin) d.name) =
        (letters 0x61 26 ++ letters 0x3b1 20 ++ letters 0x3c6 4).map some := by
  refine ⟨by decide, ?_⟩
  rw [List.map_congr_left (g := fun d => some d.text) C44_builtin.2.1]
  decide

/-- Three of the Greek letters are declared with a symbol that is not theirs: `Sigma` with the final
form, `Tau` with sigma and `Upsilon` with tau; no identifier displays upsilon. -/
theorem C44_greek_caveat :
    display (expand builtin) "Sigma" = some "\u03c2" ∧
      display (expand builtin) "Tau" = some "\u03c3" ∧
      display (expand builtin) "Upsilon" = some "\u03c4" ∧
      ∀ d ∈ builtin, display (expand builtin) d.name ≠ some "\u03c5" := by
  have h := C44_builtin.2.1
  refine ⟨h ⟨"Sigma", "ς"⟩ (by decide), h ⟨"Tau", "σ"⟩ (by decide),
    h ⟨"Upsilon", "τ"⟩ (by decide), ?_⟩
  intro d hd
  rw [h d hd]
  revert d
  decide

end Aegir
