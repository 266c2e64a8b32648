import Verif.Model.CtxParse
import Mathlib.Data.List.Forall2
/-!
# Which context fields are valid
-/

namespace Aegir.CtxParse

/-- What a valid attribute says. -/
inductive Reading : Attribute → CtxAttr → Prop
  /-- `#[cache]` -/
  | cache {a} : a.path = .ofIdent "cache" → Reading a .cache
  /-- `#[id(x)]` -/
  | id {a p x} : a.path = .ofIdent "id" →
      a.parsed = some (.list p [.inner (.path (.ofIdent x))]) → Reading a (.id x)
  /-- attributes of other macros -/
  | unknown {a s} : a.path = .ofIdent s → s ≠ "cache" → s ≠ "id" → Reading a .unknown

/-- Why an attribute is invalid. -/
inductive Rejects : Attribute → AttrError → Prop
  /-- `#[a::b]` -/
  | path {a} : (∀ s, a.path ≠ .ofIdent s) → Rejects a .invalidAttr
  /-- `#[id(?)]` -/
  | syntax {a} : a.path = .ofIdent "id" → a.parsed = none → Rejects a (.idAttr .metaParseError)
  /-- `#[id()]` -/
  | few {a p} : a.path = .ofIdent "id" → a.parsed = some (.list p []) →
      Rejects a (.idAttr .tooFewArguments)
  /-- `#[id(x, y)]` -/
  | many {a p ns} : a.path = .ofIdent "id" → a.parsed = some (.list p ns) → 2 ≤ ns.length →
      Rejects a (.idAttr .tooManyArguments)
  /-- `#[id("x")]` -/
  | literal {a p l} : a.path = .ofIdent "id" → a.parsed = some (.list p [.lit l]) →
      Rejects a (.idAttr .literal)
  /-- `#[id(x = "y")]` or `#[id(x(y))]` -/
  | improper {a p m} : a.path = .ofIdent "id" → a.parsed = some (.list p [.inner m]) →
      (∀ q, m ≠ .path q) → Rejects a (.idAttr .improper)
  /-- `#[id]` or `#[id = "x"]` -/
  | unsupported {a m} : a.path = .ofIdent "id" → a.parsed = some m → (∀ p ns, m ≠ .list p ns) →
      Rejects a (.idAttr .unsupported)

/-- The identifiers given by attributes, in order. -/
def ids : List CtxAttr → List String :=
  List.filterMap fun
    | .id x => some x
    | _ => none

/-- The type is `Option<T>`. -/
def OptionOf (ty T : Ty) : Prop := ty = .path false false [.mk "Option" (.angle [.type T] false)]

/-- A path type such as `Vec<f64>` or `a::B`. -/
def PlainPath (T : Ty) : Prop := ∃ segs, T = .path false false segs

/-- The documented outcome for a field. -/
inductive Verdict (f : Field) : Res FieldError CtxField → Prop
  | unnamed : f.name = none → Verdict f (.err .noFieldId)
  | badAttr {name pre a post e} : f.name = some name → f.attrs = pre ++ a :: post →
      (∀ b ∈ pre, ∃ k, Reading b k) → Rejects a e → Verdict f (.err (.parseError e))
  | manyIds {name ks} : f.name = some name → List.Forall₂ Reading f.attrs ks →
      2 ≤ (ids ks).length → Verdict f (.err .tooManyIds)
  | noId {name ks} : f.name = some name → List.Forall₂ Reading f.attrs ks →
      CtxAttr.cache ∈ ks → ids ks = [] → Verdict f (.err .noFieldId)
  | badType {name ks x} : f.name = some name → List.Forall₂ Reading f.attrs ks →
      CtxAttr.cache ∈ ks → ids ks = [x] → (∀ T, ¬ OptionOf f.ty T) →
      Verdict f (.err .improperCacheType)
  | cached {name ks x T} : f.name = some name → List.Forall₂ Reading f.attrs ks →
      CtxAttr.cache ∈ ks → ids ks = [x] → OptionOf f.ty T →
      Verdict f (.ok { name, ty := f.ty, bufferTy := T, ident := some x, isCache := true })
  | plain {name ks} {o : Option String} : f.name = some name →
      List.Forall₂ Reading f.attrs ks → CtxAttr.cache ∉ ks → ids ks = o.toList →
      Verdict f (.ok { name, ty := f.ty, bufferTy := f.ty, ident := o, isCache := false })

/-- No `#[id(a::b)]`, and if the type is written with `Option<`, then as `Option<path type>`. -/
def Tame (f : Field) : Prop :=
  (∀ a ∈ f.attrs, a.path = .ofIdent "id" → ∀ p q, a.parsed = some (.list p [.inner (.path q)]) →
    ∃ x, q = .ofIdent x) ∧
  (∀ qself leading as trailing segs,
    f.ty = .path qself leading (.mk "Option" (.angle as trailing) :: segs) →
    ∃ T, PlainPath T ∧ OptionOf f.ty T)

/-- The field `#[cache] #[id(X)] x: ty`. -/
def cacheField (ty : Ty) : Field :=
  { name := some "x"
    attrs := [⟨.ofIdent "cache", some (.path (.ofIdent "cache"))⟩,
      ⟨.ofIdent "id", some (.list (.ofIdent "id") [.inner (.path (.ofIdent "X"))])⟩]
    ty := ty }

end Aegir.CtxParse
