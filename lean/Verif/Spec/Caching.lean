import Verif.Spec.Errors
/-!
# Vocabulary about caching
-/

namespace Aegir.Spec

variable {F : Type} {Γ : Id → BTy}

/-- `e` with all `Cached` wrappers removed. -/
def uncached : Node F → Node F
  | .var i => .var i
  | .varAdj i t => .varAdj i t
  | .const τ b => .const τ b
  | .constSpec τ s => .constSpec τ s
  | .constAdj n t => .constAdj (uncached n) t
  | .cached n _ => uncached n
  | .add l r => .add (uncached l) (uncached r)
  | .sub l r => .sub (uncached l) (uncached r)
  | .mul l r => .mul (uncached l) (uncached r)
  | .div l r => .div (uncached l) (uncached r)
  | .power l r => .power (uncached l) (uncached r)
  | .contract k l r => .contract k (uncached l) (uncached r)
  | .sum n => .sum (uncached n)
  | .un op n => .un op (uncached n)

/-- The `Function<C>` derivation of the expression without `Cached` wrappers. -/
def FnImpl.strip : {e : Node F} → {τ : BTy} → FnImpl Γ e τ → FnImpl Γ (uncached e) τ
  | _, _, .var i => .var i
  | _, _, .varAdj i t k h => .varAdj i t k h
  | _, _, .const τ b => .const τ b
  | _, _, .constSpec τ s => .constSpec τ s
  | _, _, .constAdj d t k => .constAdj (FnImpl.strip d) t k
  | _, _, .cached (n := n) _ d => FnImpl.strip (e := n) d
  | _, _, .add dl dr z => .add (FnImpl.strip dl) (FnImpl.strip dr) z
  | _, _, .sub dl dr z => .sub (FnImpl.strip dl) (FnImpl.strip dr) z
  | _, _, .mul dl dr z => .mul (FnImpl.strip dl) (FnImpl.strip dr) z
  | _, _, .div dl dr z => .div (FnImpl.strip dl) (FnImpl.strip dr) z
  | _, _, .power dl dr => .power (FnImpl.strip dl) (FnImpl.strip dr)
  | _, _, .contract dl dr z => .contract (FnImpl.strip dl) (FnImpl.strip dr) z
  | _, _, .sum d => .sum (FnImpl.strip d)
  | _, _, .un op d => .un op (FnImpl.strip d)

/-- The caches of a program: the expression whose value each cache identifier stands for. -/
def Caches (F : Type) (Γ : Id → BTy) := (i : Id) → Option ((n : Node F) × FnImpl Γ n (Γ i))

/-- `e`, with or without its `Cached` wrappers, evaluates to an explicit buffer rather than a
compressed one. -/
def Explicit : Node F → Prop
  | .var _ | .const _ _ | .div _ _ => True
  | .cached n _ | .un _ n | .sum n => Explicit n
  | .add l r | .sub l r => Explicit l ∨ Explicit r
  | .mul l r | .power l r => Explicit l ∧ Explicit r
  | .varAdj _ _ | .constSpec _ _ | .constAdj _ _ | .contract _ _ _ => False

/-- `d` uses the caches `K`, and only them: every `Cached` node stores under the identifier that `K`
gives to its operand, and no identifier of a cache is read as a variable or shape. -/
def FnImpl.Uses (K : Caches F Γ) : {e : Node F} → {τ : BTy} → FnImpl Γ e τ → Prop
  | _, _, .var i => K i = none
  | _, _, .varAdj i t _ _ => K i = none ∧ K t = none
  | _, _, .const _ _ => True
  | _, _, .constSpec _ _ => True
  | _, _, .constAdj d t _ => FnImpl.Uses K d ∧ K t = none
  | _, _, .cached i d => FnImpl.Uses K d ∧ K i = some ⟨_, d⟩
  | _, _, .add dl dr _ => FnImpl.Uses K dl ∧ FnImpl.Uses K dr
  | _, _, .sub dl dr _ => FnImpl.Uses K dl ∧ FnImpl.Uses K dr
  | _, _, .mul dl dr _ => FnImpl.Uses K dl ∧ FnImpl.Uses K dr
  | _, _, .div dl dr _ => FnImpl.Uses K dl ∧ FnImpl.Uses K dr
  | _, _, .power dl dr => FnImpl.Uses K dl ∧ FnImpl.Uses K dr
  | _, _, .contract dl dr _ => FnImpl.Uses K dl ∧ FnImpl.Uses K dr
  | _, _, .sum d => FnImpl.Uses K d
  | _, _, .un _ d => FnImpl.Uses K d

/-- The places where the value of an operator of this library depends on whether an operand is
compressed (or its shape known without evaluation) do not occur: adjoints of constants have no cache
inside, a scalar minus an array of rank two or more does not occur (C11), `Power` has an explicit
base, matrix-vector products have at least as many rows as columns (C15). -/
def FnImpl.CacheSafe : {e : Node F} → {τ : BTy} → FnImpl Γ e τ → Prop
  | _, _, .var _ => True
  | _, _, .varAdj _ _ _ _ => True
  | _, _, .const _ _ => True
  | _, _, .constSpec _ _ => True
  | _, _, .constAdj (n := n) d _ _ => FnImpl.CacheSafe d ∧ CacheFree n
  | _, _, .cached _ d => FnImpl.CacheSafe d
  | _, _, .add dl dr _ => FnImpl.CacheSafe dl ∧ FnImpl.CacheSafe dr
  | _, _, .sub (a := a) (b := b) dl dr _ => FnImpl.CacheSafe dl ∧ FnImpl.CacheSafe dr ∧
      ¬ (a = .scalar ∧ ∃ ds, b = .array ds ∧ 2 ≤ ds.length)
  | _, _, .mul dl dr _ => FnImpl.CacheSafe dl ∧ FnImpl.CacheSafe dr
  | _, _, .div dl dr _ => FnImpl.CacheSafe dl ∧ FnImpl.CacheSafe dr
  | _, _, .power (l := l) dl dr => FnImpl.CacheSafe dl ∧ FnImpl.CacheSafe dr ∧ Explicit l
  | _, _, .contract (a := a) (b := b) (c := c) dl dr _ =>
      FnImpl.CacheSafe dl ∧ FnImpl.CacheSafe dr ∧
        (∀ n m, a = .array [n, m] → b = .array [n] → c = .array [m] → m ≤ n) ∧
        (∀ n m, a = .array [n] → b = .array [n, m] → c = .array [m] → m ≤ n)
  | _, _, .sum d => FnImpl.CacheSafe d
  | _, _, .un _ d => FnImpl.CacheSafe d

/-- The expressions behind the caches use the caches consistently themselves. -/
def Caches.Consistent (K : Caches F Γ) : Prop :=
  ∀ i n d, K i = some ⟨n, d⟩ → FnImpl.Uses K d ∧ FnImpl.CacheSafe d

variable [Zero F] [One F] [Add F] [Sub F] [Mul F] [Div F] [Neg F] [ScalarFns F]

/-- Every cache entry is empty or holds the value of its expression, evaluated without caches. -/
def Caches.Coherent (K : Caches F Γ) (c : Ctx F Γ) : Prop :=
  ∀ i n d v, K i = some ⟨n, d⟩ → c i = some v → (FnImpl.strip d).evaluate c = (.ok v, c)

/-- One step of a program with caches `K`: evaluate an expression by any of the three methods, or
assign a variable and clear all caches whose expression mentions it. -/
inductive CacheStep (K : Caches F Γ) (c : Ctx F Γ) : Ctx F Γ → Prop
  | evaluate {e : Node F} {τ : BTy} (d : FnImpl Γ e τ) (hu : FnImpl.Uses K d)
      (hs : FnImpl.CacheSafe d) : CacheStep K c (d.evaluate c).2
  | evaluateSpec {e : Node F} {τ : BTy} (d : FnImpl Γ e τ) (hu : FnImpl.Uses K d)
      (hs : FnImpl.CacheSafe d) : CacheStep K c (d.evaluateSpec c).2
  | evaluateShape {e : Node F} {τ : BTy} (d : FnImpl Γ e τ) (hu : FnImpl.Uses K d)
      (hs : FnImpl.CacheSafe d) : CacheStep K c (d.evaluateShape c).2
  | assign {c' : Ctx F Γ} (j : Id) (hj : K j = none)
      (hc : ∀ i, i ≠ j → (∀ n d, K i = some ⟨n, d⟩ → n.contains j = false) → c' i = c i)
      (hclear : ∀ i n d, K i = some ⟨n, d⟩ → n.contains j = true → c' i = none) : CacheStep K c c'

end Aegir.Spec
