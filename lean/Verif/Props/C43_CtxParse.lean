import Verif.Spec.CtxParse
import Mathlib.Data.List.Perm.Basic
/-!
# C43: the attributes of context fields
-/

namespace Aegir

open CtxParse

private theorem getIdent_iff (p : CtxParse.Path) (s : String) :
    p.getIdent = some s ↔ p = .ofIdent s := by
  obtain ⟨_ | _, _ | ⟨x, _ | ⟨y, t⟩⟩⟩ := p <;> simp [Path.getIdent, Path.ofIdent]

private theorem getIdent_none (p : CtxParse.Path) : p.getIdent = none ↔ ∀ s, p ≠ .ofIdent s := by
  constructor
  · intro h s hs
    rw [(getIdent_iff p s).2 hs] at h
    cases h
  · intro h
    cases hp : p.getIdent with
    | none => rfl
    | some s => exact (h s ((getIdent_iff p s).1 hp)).elim

private theorem parseAttr_ok (a : Attribute) (k : CtxAttr) : parseAttr a = .ok k ↔ Reading a k := by
  constructor
  · intro h
    unfold parseAttr at h
    split at h
    · rename_i ident hi
      have hi := (getIdent_iff _ _).1 hi
      split_ifs at h with h1 h2
      · cases h
        exact .cache (by rw [hi, h1])
      · subst h2
        unfold parseIdAttr at h
        split at h <;> try (cases h)
        rename_i p hp
        split at h <;> cases h
        rename_i s hs
        rw [(getIdent_iff _ _).1 hs] at hp
        exact .id hi hp
      · cases h
        exact .unknown hi h1 h2
    · cases h
  · intro h
    cases h with
    | cache h => simp [parseAttr, h, Path.getIdent, Path.ofIdent]
    | id h h' => simp [parseAttr, h, h', Path.getIdent, Path.ofIdent, parseIdAttr, Res.map, Res.mapErr]
    | unknown h h1 h2 => simp [parseAttr, h, Path.getIdent, Path.ofIdent, h1, h2]

private theorem parseAttr_err (a : Attribute) (e : AttrError) :
    parseAttr a = .err e ↔ Rejects a e := by
  constructor
  · intro h
    unfold parseAttr at h
    split at h
    · rename_i ident hi
      have hi := (getIdent_iff _ _).1 hi
      split_ifs at h with h1 h2
      subst h2
      unfold parseIdAttr at h
      split at h
      · rename_i hp; cases h; exact .syntax hi hp
      · rename_i hp; cases h; exact .few hi hp
      · rename_i hp; cases h; exact .many hi hp (by simp)
      · split at h <;> cases h
      · rename_i hm hp; cases h; exact .improper hi hp (by rintro q rfl; exact hm q rfl)
      · rename_i hp; cases h; exact .literal hi hp
      · rename_i m h1 h2 h3 h4 h5 hp
        cases h
        refine .unsupported hi hp ?_
        rintro p ns rfl
        match ns with
        | [] => exact h1 p rfl
        | _ :: _ :: _ => exact h2 p _ _ _ rfl
        | [.inner m] => exact h4 p m rfl
        | [.lit l] => exact h5 p l rfl
    · rename_i hn
      cases h
      exact .path ((getIdent_none _).1 hn)
  · intro h
    cases h with
    | path h => simp [parseAttr, (getIdent_none _).2 h]
    | «syntax» h h' | few h h' | literal h h' =>
      simp [parseAttr, h, h', Path.getIdent, Path.ofIdent, parseIdAttr, Res.map, Res.mapErr]
    | @many p ns h h' hl =>
      obtain ⟨a, b, t, rfl⟩ : ∃ a b t, ns = a :: b :: t := by
        match ns, hl with
        | a :: b :: t, _ => exact ⟨a, b, t, rfl⟩
      simp [parseAttr, h, h', Path.getIdent, Path.ofIdent, parseIdAttr, Res.map, Res.mapErr]
    | @improper p m h h' hm =>
      cases m with
      | path q => exact (hm q rfl).elim
      | _ => simp [parseAttr, h, h', Path.getIdent, Path.ofIdent, parseIdAttr, Res.map, Res.mapErr]
    | @unsupported m h h' hm =>
      cases m with
      | list p ns => exact (hm p ns rfl).elim
      | _ => simp [parseAttr, h, h', Path.getIdent, Path.ofIdent, parseIdAttr, Res.map, Res.mapErr]

private theorem parseAttr_panic (a : Attribute) : parseAttr a = .panic ↔
    a.path = .ofIdent "id" ∧ ∃ p q, a.parsed = some (.list p [.inner (.path q)]) ∧
      ∀ x, q ≠ .ofIdent x := by
  constructor
  · intro h
    unfold parseAttr at h
    split at h
    · rename_i ident hi
      have hi := (getIdent_iff _ _).1 hi
      split_ifs at h with h1 h2
      subst h2
      refine ⟨hi, ?_⟩
      unfold parseIdAttr at h
      split at h <;> try (cases h)
      rename_i p q hp
      split at h <;> cases h
      rename_i hs
      exact ⟨p, q, hp, (getIdent_none _).1 hs⟩
    · cases h
  · rintro ⟨h, p, q, h', hq⟩
    have := (getIdent_none q).2 hq
    have hid : (Path.ofIdent "id").getIdent = some "id" := rfl
    simp [parseAttr, h, hid, parseIdAttr, h', this, Res.map, Res.mapErr]

private theorem parseAttrs_ok (as : List Attribute) (ks : List CtxAttr) :
    parseAttrs as = .ok ks ↔ List.Forall₂ Reading as ks := by
  induction as generalizing ks with
  | nil => simp [parseAttrs, eq_comm]
  | cons a as ih =>
    rw [parseAttrs, List.forall₂_cons_left_iff]
    constructor
    · intro h
      cases ha : parseAttr a with
      | ok k =>
        cases has : parseAttrs as with
        | ok ks' =>
          simp only [ha, has, Res.bind, Res.map, Res.ok.injEq] at h
          exact ⟨k, ks', (parseAttr_ok a k).1 ha, (ih ks').1 has, h.symm⟩
        | _ => simp [ha, has, Res.bind, Res.map] at h
      | _ => simp [ha, Res.bind] at h
    · rintro ⟨k, ks', hk, hks, rfl⟩
      rw [(parseAttr_ok a k).2 hk, (ih ks').2 hks]
      rfl

private theorem parseAttrs_err (as : List Attribute) (e : AttrError) : parseAttrs as = .err e ↔
    ∃ pre a post, as = pre ++ a :: post ∧ (∀ b ∈ pre, ∃ k, Reading b k) ∧ Rejects a e := by
  induction as with
  | nil => simp [parseAttrs]
  | cons a as ih =>
    rw [parseAttrs]
    constructor
    · intro h
      cases ha : parseAttr a with
      | ok k =>
        cases has : parseAttrs as with
        | ok ks' => simp [ha, has, Res.bind, Res.map] at h
        | err e' =>
          simp only [ha, has, Res.bind, Res.map, Res.err.injEq] at h
          subst h
          obtain ⟨pre, b, post, rfl, h1, h2⟩ := ih.1 has
          refine ⟨a :: pre, b, post, rfl, fun c hc => ?_, h2⟩
          rcases List.mem_cons.1 hc with rfl | hc
          · exact ⟨k, (parseAttr_ok _ k).1 ha⟩
          · exact h1 c hc
        | panic => simp [ha, has, Res.bind, Res.map] at h
      | err e' =>
        simp only [ha, Res.bind, Res.err.injEq] at h
        subst h
        exact ⟨[], a, as, rfl, by simp, (parseAttr_err a _).1 ha⟩
      | panic => simp [ha, Res.bind] at h
    · rintro ⟨pre, b, post, h, h1, h2⟩
      cases pre with
      | nil =>
        obtain ⟨rfl, rfl⟩ := List.cons.inj h
        rw [(parseAttr_err a e).2 h2]
        rfl
      | cons c pre =>
        obtain ⟨rfl, rfl⟩ := List.cons.inj h
        obtain ⟨k, hk⟩ := h1 a (by simp)
        rw [(parseAttr_ok a k).2 hk,
          ih.2 ⟨pre, b, post, rfl, fun c hc => h1 c (List.mem_cons_of_mem _ hc), h2⟩]
        rfl

private theorem scan_eq (ks : List CtxAttr) (c : Bool) (o : Option String) :
    scan ks (c, o) = if (o.toList ++ ids ks).length ≤ 1 then
      .ok (c || decide (CtxAttr.cache ∈ ks), (o.toList ++ ids ks).head?)
    else .err .tooManyIds := by
  induction ks generalizing c o with
  | nil => cases o <;> simp [scan, ids]
  | cons k ks ih =>
    cases k with
    | unknown => rw [scan, ih]; simp [ids]
    | cache => rw [scan, ih]; simp [ids]
    | id x =>
      rw [scan]
      cases o with
      | none => simp [ih, ids]
      | some y => simp [ids]

/-- The outcome once all attributes are read. -/
private def finish (name : String) (ty : Ty) (cache : Bool) (is : List String) :
    Res FieldError CtxField :=
  if is.length ≤ 1 then
    if cache && is.isEmpty then .err .noFieldId
    else (if cache then parseTyCache ty else .ok ty).map fun bufferTy =>
      { name, ty, bufferTy, ident := is.head?, isCache := cache }
  else .err .tooManyIds

private theorem parseField_read (f : CtxParse.Field) (name : String) (ks : List CtxAttr)
    (hn : f.name = some name) (hk : List.Forall₂ Reading f.attrs ks) :
    parseField f = finish name f.ty (decide (CtxAttr.cache ∈ ks)) (ids ks) := by
  have h1 := (parseAttrs_ok _ _).2 hk
  unfold parseField finish
  rw [hn]
  simp only [h1, Res.mapErr, Res.bind, scan_eq, Option.toList, List.nil_append, Bool.false_or]
  by_cases hl : (ids ks).length ≤ 1
  · simp only [hl, if_true]
    cases h : ids ks <;> simp
  · simp [hl]

private theorem optionOf_cache {ty T : Ty} (h : OptionOf ty T) (hp : PlainPath T) :
    parseTyCache ty = .ok T := by
  obtain ⟨segs, rfl⟩ := hp
  rw [h]
  simp [parseTyCache, reparse]

/-- What is not written with `Option<` is no cache type. -/
private theorem not_option_cache {ty : Ty} (h : ∀ qself leading as trailing segs,
    ty ≠ .path qself leading (.mk "Option" (.angle as trailing) :: segs)) :
    parseTyCache ty = .err .improperCacheType := by
  unfold parseTyCache
  split
  · rename_i q l ident args segs
    split_ifs with hi
    · subst hi
      cases args with
      | angle as tr => exact (h q l as tr segs rfl).elim
      | _ => rfl
    · rfl
  · rfl

/-- A field is accepted or rejected as documented, with the documented error and priorities, for
fields without `#[id(a::b)]` and with `Option<` only in front of path types. -/
theorem C43_verdict_partial (f : CtxParse.Field) (hf : Tame f) (v : Res FieldError CtxField) :
    parseField f = v ↔ Verdict f v := by
  have back : Verdict f v → parseField f = v := by
    intro h
    cases h with
    | unnamed h => simp [parseField, h]
    | badAttr hn ha hp hr =>
      have := (parseAttrs_err f.attrs _).2 ⟨_, _, _, ha, hp, hr⟩
      simp [parseField, hn, this, Res.mapErr, Res.bind]
    | manyIds hn hk hl =>
      rw [parseField_read f _ _ hn hk, finish, if_neg (by omega)]
    | noId hn hk hc hi =>
      rw [parseField_read f _ _ hn hk]
      simp [finish, hc, hi]
    | badType hn hk hc hi ht =>
      rw [parseField_read f _ _ hn hk]
      have := not_option_cache (ty := f.ty) fun q l as tr segs h => by
        obtain ⟨T, _, hT⟩ := hf.2 q l as tr segs h
        exact ht T hT
      simp [finish, hc, hi, this, Res.map]
    | @cached _ _ _ T hn hk hc hi ht =>
      rw [parseField_read f _ _ hn hk]
      obtain ⟨T', hp, hT'⟩ := hf.2 _ _ _ _ _ ht
      have : T' = T := by
        have := hT'.symm.trans ht
        simpa using this
      subst this
      simp [finish, hc, hi, optionOf_cache ht hp, Res.map]
    | @plain name ks o hn hk hc hi =>
      rw [parseField_read f _ _ hn hk]
      cases o <;> simp [finish, hc, hi, Res.map]
  refine ⟨?_, back⟩
  rintro rfl
  cases hn : f.name with
  | none => simpa [parseField, hn] using Verdict.unnamed hn
  | some name =>
    cases ha : parseAttrs f.attrs with
    | err e =>
      obtain ⟨pre, a, post, h1, h2, h3⟩ := (parseAttrs_err _ _).1 ha
      have hv : Verdict f _ := .badAttr hn h1 h2 h3
      simpa [parseField, hn, ha, Res.mapErr, Res.bind] using hv
    | panic =>
      exfalso
      have : ∀ as : List Attribute, (∀ a ∈ as, a ∈ f.attrs) → parseAttrs as ≠ .panic := by
        intro as
        induction as with
        | nil => simp [parseAttrs]
        | cons a as ih =>
          intro hm h
          rw [parseAttrs] at h
          cases hp : parseAttr a with
          | ok k =>
            have := ih fun x hx => hm x (List.mem_cons_of_mem _ hx)
            cases has : parseAttrs as <;> simp_all [Res.bind, Res.map]
          | err e => simp [hp, Res.bind] at h
          | panic =>
            obtain ⟨h1, p, q, h2, h3⟩ := (parseAttr_panic a).1 hp
            obtain ⟨x, hx⟩ := hf.1 a (hm a (by simp)) h1 p q h2
            exact h3 x hx
      exact this _ (fun _ h => h) ha
    | ok ks =>
      have hk := (parseAttrs_ok _ _).1 ha
      rw [parseField_read f name ks hn hk]
      match hi : ids ks with
      | _ :: _ :: _ =>
        have hv : Verdict f _ := .manyIds hn hk (by rw [hi]; simp)
        simpa [finish] using hv
      | [] =>
        by_cases hc : CtxAttr.cache ∈ ks
        · simpa [finish, hc] using Verdict.noId hn hk hc hi
        · simpa [finish, hc, Res.map] using Verdict.plain (o := none) hn hk hc hi
      | [x] =>
        by_cases hc : CtxAttr.cache ∈ ks
        · by_cases ht : ∃ T, OptionOf f.ty T
          · obtain ⟨T, hT⟩ := ht
            have hv : Verdict f _ := .cached hn hk hc hi hT
            obtain ⟨T', hp, hT'⟩ := hf.2 _ _ _ _ _ hT
            have : T' = T := by
              have := hT'.symm.trans hT
              simpa using this
            subst this
            simpa [finish, hc, optionOf_cache hT hp, Res.map] using hv
          · have hv : Verdict f _ := .badType hn hk hc hi fun T h => ht ⟨T, h⟩
            have := not_option_cache (ty := f.ty) fun q l as tr segs h => by
              obtain ⟨T, _, hT⟩ := hf.2 q l as tr segs h
              exact ht ⟨T, hT⟩
            simpa [finish, hc, this, Res.map] using hv
        · simpa [finish, hc, Res.map] using Verdict.plain (o := some x) hn hk hc hi

/-- Acceptance in words: named, valid attributes, at most one identifier, and for caches exactly one
identifier and an `Option`. -/
theorem C43_accepts_iff_partial (f : CtxParse.Field) (hf : Tame f) :
    (∃ c, parseField f = .ok c) ↔ f.name ≠ none ∧ ∃ ks, List.Forall₂ Reading f.attrs ks ∧
      (ids ks).length ≤ 1 ∧
      (CtxAttr.cache ∈ ks → (ids ks).length = 1 ∧ ∃ T, OptionOf f.ty T) := by
  constructor
  · rintro ⟨c, hc⟩
    cases (C43_verdict_partial f hf _).1 hc with
    | cached hn hk hc hi ht => exact ⟨by simp [hn], _, hk, by simp [hi], fun _ => ⟨by simp [hi], _, ht⟩⟩
    | @plain _ _ o hn hk hp hi =>
      exact ⟨by simp [hn], _, hk, by cases o <;> simp [hi], fun h => (hp h).elim⟩
  · rintro ⟨hn, ks, hk, hl, hc⟩
    obtain ⟨name, hn⟩ := Option.ne_none_iff_exists'.1 hn
    by_cases h : CtxAttr.cache ∈ ks
    · obtain ⟨h1, T, hT⟩ := hc h
      obtain ⟨x, hx⟩ := List.length_eq_one_iff.1 h1
      exact ⟨_, (C43_verdict_partial f hf _).2 (.cached hn hk h hx hT)⟩
    · obtain ⟨o, ho⟩ : ∃ o : Option String, ids ks = o.toList := by
        match hi : ids ks, hl with
        | [], _ => exact ⟨none, rfl⟩
        | [x], _ => exact ⟨some x, rfl⟩
        | _ :: _ :: _, hl => simp at hl
      exact ⟨_, (C43_verdict_partial f hf _).2 (.plain hn hk h ho)⟩

/-- `#[cache] #[id(X)] #[doc] x: Option<Vec<f64>>` is accepted. -/
example : let f : CtxParse.Field :=
      { name := some "x"
        attrs := [⟨.ofIdent "cache", none⟩,
          ⟨.ofIdent "id", some (.list (.ofIdent "id") [.inner (.path (.ofIdent "X"))])⟩,
          ⟨.ofIdent "doc", none⟩]
        ty := .path false false [.mk "Option" (.angle [.type (.path false false
          [.mk "Vec" (.angle [.type (.path false false [.mk "f64" .none])] false)])] false)] }
    Tame f ∧ ∃ c, parseField f = .ok c := by
  intro f
  refine ⟨⟨?_, ?_⟩, ?_⟩
  · intro a ha h p q hq
    simp only [f, List.mem_cons, List.not_mem_nil, or_false] at ha
    rcases ha with rfl | rfl | rfl
    · cases hq
    · simp at hq
      exact ⟨"X", hq.2.symm⟩
    · cases hq
  · intro _ _ _ _ _ _
    exact ⟨_, ⟨_, rfl⟩, rfl⟩
  · exact ⟨_, rfl⟩

/-- The order of the attributes does not matter: a field with permuted attributes gives the same
result if all attributes are valid, and in any case is accepted with the same result. All field
types, well-formed or not. -/
theorem C43_order (f : CtxParse.Field) (as : List Attribute) (h : f.attrs.Perm as) :
    ((∀ a ∈ f.attrs, ∃ k, Reading a k) → parseField { f with attrs := as } = parseField f) ∧
    ∀ c, parseField { f with attrs := as } = .ok c ↔ parseField f = .ok c := by
  have key : ∀ (g : CtxParse.Field) (as : List Attribute), g.attrs.Perm as →
      (∃ ks, List.Forall₂ Reading g.attrs ks) →
      parseField { g with attrs := as } = parseField g := by
    rintro g as hp ⟨ks, hk⟩
    cases hn : g.name with
    | none => simp [parseField, hn]
    | some name =>
      obtain ⟨ks', hk', hp'⟩ := List.perm_comp_forall₂ hp.symm hk
      rw [parseField_read g name ks hn hk,
        parseField_read { name := some name, attrs := as, ty := g.ty } name ks' rfl hk',
        decide_eq_decide.2 hp'.mem_iff]
      have hi : (ids ks').Perm (ids ks) := hp'.filterMap _
      simp only [finish, hi.length_eq]
      match h : ids ks, hi with
      | [], hi => rw [hi.eq_nil]
      | [x], hi => rw [List.perm_singleton.1 hi]
      | _ :: _ :: _, _ => simp
  have readable : ∀ as : List Attribute, (∀ a ∈ as, ∃ k, Reading a k) →
      ∃ ks, List.Forall₂ Reading as ks := by
    intro as
    induction as with
    | nil => exact fun _ => ⟨[], .nil⟩
    | cons a as ih =>
      intro h
      obtain ⟨k, hk⟩ := h a (by simp)
      obtain ⟨ks, hks⟩ := ih fun x hx => h x (List.mem_cons_of_mem _ hx)
      exact ⟨k :: ks, .cons hk hks⟩
  have ok : ∀ (g : CtxParse.Field) c, parseField g = .ok c →
      ∃ ks, List.Forall₂ Reading g.attrs ks := by
    intro g c hc
    cases ha : parseAttrs g.attrs with
    | ok ks => exact ⟨ks, (parseAttrs_ok _ _).1 ha⟩
    | _ => cases hn : g.name <;> simp [parseField, hn, ha, Res.mapErr, Res.bind] at hc
  refine ⟨fun hr => key f as h (readable _ hr), fun c => ⟨fun hc => ?_, fun hc => ?_⟩⟩
  · have := key { f with attrs := as } f.attrs h.symm (ok _ c hc)
    exact this.trans hc
  · exact (key f as h (ok f c hc)).trans hc

/-- `#[id(X)] #[cache]` is the same as `#[cache] #[id(X)]`. -/
example (name : String) (ty : Ty) (a b : Attribute) :
    ∀ c, parseField ⟨some name, [a, b], ty⟩ = .ok c ↔ parseField ⟨some name, [b, a], ty⟩ = .ok c :=
  (C43_order ⟨some name, [b, a], ty⟩ [a, b] (List.Perm.swap a b [])).2

/-- The exact rule for cache types: the first segment must be `Option<..>`, the rest of the path is
ignored, and the generic arguments must be empty or a single path type (else the macro panics). -/
theorem C43_cache_type (ty : Ty) :
    (∀ T, parseTyCache ty = .ok T ↔ ∃ qself leading as trailing segs, ty = .path qself leading
      (.mk "Option" (.angle as trailing) :: segs) ∧ ∃ inner, T = .path qself leading inner ∧
        (as = [] ∧ inner = [] ∨ as = [.type (.path false false inner)] ∧ trailing = false)) ∧
    (∀ e, parseTyCache ty = .err e ↔ e = .improperCacheType ∧ ∀ qself leading as trailing segs,
      ty ≠ .path qself leading (.mk "Option" (.angle as trailing) :: segs)) := by
  by_cases h : ∃ qself leading as trailing segs,
      ty = .path qself leading (.mk "Option" (.angle as trailing) :: segs)
  · obtain ⟨q, l, as, tr, segs, rfl⟩ := h
    constructor
    · intro T
      simp only [parseTyCache, if_true]
      constructor
      · intro h
        refine ⟨q, l, as, tr, segs, rfl, ?_⟩
        split at h
        · rename_i inner hi
          cases h
          refine ⟨inner, rfl, ?_⟩
          unfold reparse at hi
          split at hi <;> cases hi
          · exact .inl ⟨rfl, rfl⟩
          · exact .inr ⟨rfl, rfl⟩
        · cases h
      · rintro ⟨q', l', as', tr', segs', he, inner, rfl, hi⟩
        simp only [Ty.path.injEq, List.cons.injEq, Seg.mk.injEq, Args.angle.injEq] at he
        obtain ⟨rfl, rfl, ⟨-, rfl, rfl⟩, rfl⟩ := he
        rcases hi with ⟨rfl, rfl⟩ | ⟨rfl, rfl⟩ <;> simp [reparse]
    · intro e
      constructor
      · intro h
        simp only [parseTyCache, if_true] at h
        split at h <;> cases h
      · rintro ⟨-, h⟩
        exact (h _ _ _ _ _ rfl).elim
  · have hn := not_option_cache (ty := ty) fun q l as tr segs he => h ⟨q, l, as, tr, segs, he⟩
    rw [hn]
    constructor
    · intro T
      constructor
      · intro h; cases h
      · rintro ⟨q, l, as, tr, segs, he, _⟩
        exact (h ⟨q, l, as, tr, segs, he⟩).elim
    · intro e
      constructor
      · intro he
        cases he
        exact ⟨rfl, fun q l as tr segs he => h ⟨q, l, as, tr, segs, he⟩⟩
      · rintro ⟨rfl, -⟩
        rfl

private theorem cacheField_reading (ty : Ty) :
    List.Forall₂ Reading (cacheField ty).attrs [.cache, .id "X"] :=
  .cons (.cache rfl) (.cons (.id rfl rfl) .nil)

/-- The restriction on types is necessary: caches of arrays (or tuples, references ..) should be
accepted but make the macro panic. -/
theorem C43_violation_cache (T : Ty) (hT : ¬ PlainPath T) :
    let f := cacheField (.path false false [.mk "Option" (.angle [.type T] false)])
    (∃ c, Verdict f (.ok c)) ∧ parseField f = .panic := by
  intro f
  refine ⟨⟨_, .cached (T := T) rfl (cacheField_reading _) (by simp) rfl rfl⟩, ?_⟩
  rw [parseField_read f "x" _ rfl (cacheField_reading _)]
  have : reparse [.type T] false = none := by
    unfold reparse
    split
    · rename_i h; cases h
    · rename_i segs h _
      simp only [List.cons.injEq, GenArg.type.injEq, and_true] at h
      exact (hT ⟨segs, h⟩).elim
    · rfl
  simp [finish, ids, f, cacheField, parseTyCache, this, Res.map]

/-- `Option<[f64; 3]>`. -/
example : ¬ PlainPath (.other "[f64; 3]") := by rintro ⟨segs, h⟩; cases h

/-- Types that are not `Option<..>` but start with it are accepted, with the wrong buffer type:
`Option<T>::S` for `T`. -/
theorem C43_violation_prefix (segs : List Seg) (s : String) :
    let f := cacheField (.path false false
      [.mk "Option" (.angle [.type (.path false false segs)] false), .mk s .none])
    Verdict f (.err .improperCacheType) ∧
    ∃ c, parseField f = .ok c ∧ c.bufferTy = .path false false segs := by
  intro f
  refine ⟨.badType rfl (cacheField_reading _) (by simp) rfl ?_, ?_⟩
  · intro T h
    simp [OptionOf, f, cacheField] at h
  · rw [parseField_read f "x" _ rfl (cacheField_reading _)]
    exact ⟨_, rfl, rfl⟩

/-- An identifier given by a path, `#[id(a::b)]`, makes the macro panic instead of being reported. -/
theorem C43_violation_id_path (f : CtxParse.Field) (name : String) (a : Attribute)
    (rest : List Attribute) (p q : CtxParse.Path) (hn : f.name = some name)
    (ha : f.attrs = a :: rest) (hid : a.path = .ofIdent "id")
    (hp : a.parsed = some (.list p [.inner (.path q)])) (hq : ∀ x, q ≠ .ofIdent x) :
    parseField f = .panic := by
  have := (parseAttr_panic a).2 ⟨hid, p, q, hp, hq⟩
  simp [parseField, hn, ha, parseAttrs, this, Res.bind, Res.mapErr]

example : ∀ x, (⟨false, ["a", "b"]⟩ : CtxParse.Path) ≠ .ofIdent x := by simp [Path.ofIdent]

/-! ## Accessors -/

private theorem extract_ok (fs : List CtxParse.Field) (cs : List CtxField) :
    extract fs = .ok cs ↔ List.Forall₂ (fun f c => parseField f = .ok c) fs cs := by
  induction fs generalizing cs with
  | nil => simp [extract, eq_comm]
  | cons f fs ih =>
    rw [extract, List.forall₂_cons_left_iff]
    cases h : parseField f with
    | ok c =>
      simp only
      constructor
      · intro h'
        cases h2 : extract fs with
        | ok cs' =>
          rw [h2] at h'
          cases h'
          exact ⟨c, cs', rfl, (ih cs').1 h2, rfl⟩
        | _ => rw [h2] at h'; cases h'
      · rintro ⟨c', cs', ⟨⟩, h2, rfl⟩
        rw [(ih cs').2 h2]
        rfl
    | _ => simp

/-- The derive macro succeeds on a struct exactly if all fields are accepted, and then generates
accessors exactly for the fields with an identifier. -/
theorem C43_accessors (fs : List CtxParse.Field) (impls : List (String × CtxField)) :
    expand (.struct fs) = .ok impls ↔ ∃ cs, List.Forall₂ (fun f c => parseField f = .ok c) fs cs ∧
      impls = cs.filterMap fun c => c.ident.map fun i => (i, c) := by
  simp only [expand, ← extract_ok]
  cases h : extract fs <;> simp [Res.map, eq_comm]

/-- Every accessor belongs to a field of the struct with that identifier, and every accepted field
with an identifier has its accessor; fields without identifier have none. -/
theorem C43_accessor_iff (fs : List CtxParse.Field) (impls : List (String × CtxField))
    (h : expand (.struct fs) = .ok impls) (i : String) (c : CtxField) :
    (i, c) ∈ impls ↔ c.ident = some i ∧ ∃ f ∈ fs, parseField f = .ok c := by
  obtain ⟨cs, hf, rfl⟩ := (C43_accessors fs impls).1 h
  have hm : c ∈ cs ↔ ∃ f ∈ fs, parseField f = .ok c := by
    clear h
    induction hf with
    | nil => simp
    | cons h1 _ ih =>
      rw [List.mem_cons, ih]
      constructor
      · rintro (rfl | ⟨f, hf, h⟩)
        · exact ⟨_, by simp, h1⟩
        · exact ⟨f, by simp [hf], h⟩
      · rintro ⟨f, hf, h⟩
        rcases List.mem_cons.1 hf with rfl | hf
        · rw [h1] at h
          cases h
          exact .inl rfl
        · exact .inr ⟨f, hf, h⟩
  simp only [List.mem_filterMap, Option.map_eq_some_iff, Prod.mk.injEq]
  constructor
  · rintro ⟨c', hc', _, h1, rfl, rfl⟩
    exact ⟨h1, hm.1 hc'⟩
  · rintro ⟨h1, h2⟩
    exact ⟨c, hm.2 h2, i, h1, rfl, rfl⟩

/-- A cache, an unmarked field and a field with an identifier: accessors for the first and third. -/
example : ∃ a b, expand (.struct
    [cacheField (.path false false [.mk "Option"
        (.angle [.type (.path false false [.mk "f64" .none])] false)]),
      ⟨some "n", [], .path false false [.mk "usize" .none]⟩,
      ⟨some "y", [⟨.ofIdent "id", some (.list (.ofIdent "id") [.inner (.path (.ofIdent "Y"))])⟩],
        .path false false [.mk "f64" .none]⟩]) = .ok [("X", a), ("Y", b)] ∧
    a.name = "x" ∧ a.isCache = true ∧ b.name = "y" ∧ b.isCache = false :=
  ⟨_, _, rfl, rfl, rfl, rfl, rfl⟩

/-- Fields declared by `ctx_type!` are accepted by the derive macro and read back as declared; the
only modifier is `cache`. -/
theorem C43_ctx_type (r : Raw) :
    (∀ c, r.normalise = .ok c → ∃ f, c.emit = some f ∧ parseField f = .ok c ∧
      c.name = r.name ∧ c.ident = some r.ident ∧ (c.isCache = true ↔ r.modifier = some "cache")) ∧
    ((∃ c, r.normalise = .ok c) ↔ r.modifier = none ∨ r.modifier = some "cache") := by
  have e1 : ∀ s t : String, parseField
      ⟨some s, [⟨.ofIdent "id", some (.list (.ofIdent "id") [.inner (.path (.ofIdent t))])⟩],
        .path false false [.mk ("__" ++ t) .none]⟩ = .ok
      { name := s, ty := .path false false [.mk ("__" ++ t) .none],
        bufferTy := .path false false [.mk ("__" ++ t) .none], ident := some t, isCache := false } := by
    intro s t
    rw [parseField_read _ s [.id t] rfl (.cons (.id rfl rfl) .nil)]
    rfl
  have e2 : ∀ s t : String, parseField
      ⟨some s, [⟨.ofIdent "cache", some (.path (.ofIdent "cache"))⟩,
        ⟨.ofIdent "id", some (.list (.ofIdent "id") [.inner (.path (.ofIdent t))])⟩],
        .path false false [.mk "Option"
          (.angle [.type (.path false false [.mk ("__" ++ t) .none])] false)]⟩ = .ok
      { name := s, ty := .path false false [.mk "Option"
          (.angle [.type (.path false false [.mk ("__" ++ t) .none])] false)],
        bufferTy := .path false false [.mk ("__" ++ t) .none], ident := some t, isCache := true } := by
    intro s t
    rw [parseField_read _ s [.cache, .id t] rfl (.cons (.cache rfl) (.cons (.id rfl rfl) .nil))]
    rfl
  obtain ⟨m, s, t⟩ := r
  cases m with
  | none =>
    refine ⟨?_, by simp [Raw.normalise]⟩
    intro c hc
    cases hc
    exact ⟨_, rfl, e1 s t, rfl, rfl, by simp⟩
  | some m =>
    by_cases hm : m = "cache"
    · subst hm
      refine ⟨?_, by simp [Raw.normalise]⟩
      intro c hc
      cases hc
      exact ⟨_, rfl, e2 s t, rfl, rfl, by simp⟩
    · simp [Raw.normalise, hm]

example : (∃ c, Raw.normalise ⟨some "cache", "_x", "X"⟩ = .ok c ∧ c.isCache = true) ∧
    Raw.normalise ⟨some "mut", "_x", "X"⟩ = .err "mut" := ⟨⟨_, rfl, rfl⟩, rfl⟩

end Aegir
