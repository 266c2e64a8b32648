import Verif.Model.BSpec
import Mathlib.Data.Fintype.Basic
/-!
# Contractions (`aegir/src/buffers/arrays/contraction_ops.rs`)
-/

namespace Aegir

/-- The `Contract<R, AXES> for L` impls, indexed by `AXES`, left, right and output type
(`contraction_ops.rs`; the line of each `impl_contract!` is given). -/
inductive ContractImpl : Nat → BTy → BTy → BTy → Type
  /-- L37 -/
  | ss0 : ContractImpl 0 .scalar .scalar .scalar
  /-- L43 -/
  | vs0 (n : Nat) : ContractImpl 0 (.array [n]) .scalar (.array [n])
  /-- L56 -/
  | sv0 (n : Nat) : ContractImpl 0 .scalar (.array [n]) (.array [n])
  /-- L69 -/
  | ms0 (n m : Nat) : ContractImpl 0 (.array [n, m]) .scalar (.array [n, m])
  /-- L84 -/
  | vv0 (n m : Nat) : ContractImpl 0 (.array [n]) (.array [m]) (.array [n, m])
  /-- L110 -/
  | sm0 (n m : Nat) : ContractImpl 0 .scalar (.array [n, m]) (.array [n, m])
  /-- L126 -/
  | ss1 : ContractImpl 1 .scalar .scalar .scalar
  /-- L132 -/
  | dot (n : Nat) : ContractImpl 1 (.array [n]) (.array [n]) .scalar
  /-- L145: `[[F; M]; N] · [F; N] -> [F; M]` -/
  | mv (n m : Nat) : ContractImpl 1 (.array [n, m]) (.array [n]) (.array [m])
  /-- L171: `[[F; Z]; N] · [[F; M]; Z] -> [[F; M]; N]` -/
  | mm (n z m : Nat) : ContractImpl 1 (.array [n, z]) (.array [z, m]) (.array [n, m])
  /-- L189: `[F; N] · [[F; M]; N] -> [F; M]` -/
  | vm (n m : Nat) : ContractImpl 1 (.array [n]) (.array [n, m]) (.array [m])

/-- Impl lookup as done by the trait solver (the impls do not overlap). -/
def contractImpl? : (axes : Nat) → (a b : BTy) → Option (Σ c, ContractImpl axes a b c)
  | 0, .scalar, .scalar => some ⟨_, .ss0⟩
  | 0, .array [n], .scalar => some ⟨_, .vs0 n⟩
  | 0, .scalar, .array [n] => some ⟨_, .sv0 n⟩
  | 0, .array [n, m], .scalar => some ⟨_, .ms0 n m⟩
  | 0, .array [n], .array [m] => some ⟨_, .vv0 n m⟩
  | 0, .scalar, .array [n, m] => some ⟨_, .sm0 n m⟩
  | 1, .scalar, .scalar => some ⟨_, .ss1⟩
  | 1, .array [n], .array [n'] => if h : n = n' then some ⟨.scalar, h ▸ .dot n⟩ else none
  | 1, .array [n, m], .array [n'] =>
      if h : n = n' then some ⟨.array [m], h ▸ .mv n m⟩ else none
  | 1, .array [n, z], .array [z', m] =>
      if h : z = z' then some ⟨.array [n, m], h ▸ .mm n z m⟩ else none
  | 1, .array [n], .array [n', m] =>
      if h : n = n' then some ⟨.array [m], h ▸ .vm n m⟩ else none
  | _, _, _ => none

namespace NArr
variable {F : Type}

/-- `array_init` whose closure may panic (`contraction_ops.rs` L146, L172-176, L190). -/
def mkRowsOpt {d : Nat} {ds : Dims} (f : Fin d → Option (NArr F ds)) : Option (NArr F (d :: ds)) :=
  if h : ∀ i, (f i).isSome then some (mkRows (fun i => (f i).get (h i))) else none

/-- `x[i]` of a rank-1 array. -/
def elem {d : Nat} (a : NArr F [d]) (i : Fin d) : F := row (ds := []) a i

/-- `array_init` of a rank-1 array. -/
def ofElems {d : Nat} (f : Fin d → F) : NArr F [d] := mkRows (ds := []) f

/-- `array_init` of a rank-1 array whose closure may panic. -/
def ofElemsOpt {d : Nat} (f : Fin d → Option F) : Option (NArr F [d]) := mkRowsOpt (ds := []) f

end NArr

/-- `(0..n).fold(F::zero(), |acc, k| acc + g(k))` where `g` may panic (`contraction_ops.rs` L146,
L174, L190). -/
def sumLoop {F : Type} [Zero F] [Add F] (n : Nat) (g : Nat → Option F) : Option F :=
  (List.range n).foldlM (fun acc k => (g k).map (fun t => acc + t)) 0

namespace Buf
variable {F : Type} [Zero F] [Add F] [Mul F]

/-- `Contract::contract` (`contraction_ops.rs`, first block of each impl); never returns an error. -/
def contract {axes : Nat} {a b c : BTy} : ContractImpl axes a b c → Buf F a → Buf F b →
    Res IncShapes (Buf F c)
  | .ss0, x, y => .ok (x * y)
  | .vs0 n, x, y => .ok (NArr.mutate [n] x (fun xi => xi * y))
  | .sv0 n, x, y => .ok (NArr.mutate [n] y (fun yi => yi * x))
  | .ms0 n m, x, y => .ok (NArr.mutate [n, m] x (fun xij => xij * y))
  | .vv0 n m, x, y =>
      .ok (NArr.mkRows (d := n) (ds := [m])
        (fun i => NArr.map [m] y (fun yj => NArr.elem x i * yj)))
  | .sm0 n m, x, y => .ok (NArr.mutate [n, m] y (fun yij => yij * x))
  | .ss1, x, y => .ok (x * y)
  | .dot n, x, y => zipFold (.aa [n]) x y 0 (fun acc p => acc + p.1 * p.2)
  | .mv n m, x, y =>
      Res.ofOption (NArr.ofElemsOpt (d := m) (fun i =>
        sumLoop m (fun k => (NArr.getU [n, m] x [i.val, k]).bind (fun u =>
          (NArr.getU [n] y [k]).map (fun v => u * v)))))
  | .mm n z m, x, y =>
      Res.ofOption (NArr.mkRowsOpt (d := n) (ds := [m]) (fun i =>
        NArr.ofElemsOpt (d := m) (fun j =>
          sumLoop z (fun k => (NArr.getU [n, z] x [i.val, k]).bind (fun u =>
            (NArr.getU [z, m] y [k, j.val]).map (fun v => u * v))))))
  | .vm n m, x, y =>
      Res.ofOption (NArr.ofElemsOpt (d := m) (fun i =>
        sumLoop m (fun k => (NArr.getU [n] x [k]).bind (fun u =>
          (NArr.getU [n, m] y [k, i.val]).map (fun v => u * v)))))

end Buf

namespace BSpec
variable {F : Type} [Zero F] [Add F] [Mul F] [ScalarFns F]

/-- The general arm `x.unwrap().contract(y.unwrap()).map(Spec::Raw)`. -/
def denseContract {axes : Nat} {a b c : BTy} (z : ContractImpl axes a b c) (x : BSpec F a)
    (y : BSpec F b) : Res IncShapes (BSpec F c) :=
  (Buf.contract z x.unwrap y.unwrap).map raw

/-- `Contract::contract_spec` (`contraction_ops.rs`, second block of each impl; arms in source
order). The pointer casts at L157-162 and L201-206 are the identity `[F; N] → [F; M]`, guarded by
`M == N`. -/
def contract {axes : Nat} {a b c : BTy} : ContractImpl axes a b c → BSpec F a → BSpec F b →
    Res IncShapes (BSpec F c)
  | .ss0, x, y => .ok (full () (unwrap x * unwrap y))
  | .vs0 n, x, y =>
      match x with
      | full sx fx => .ok (full sx (fx * unwrap y))
      | x => denseContract (.vs0 n) x y
  | .sv0 n, x, y =>
      match y with
      | full sy fy => .ok (full sy (unwrap x * fy))
      | y => denseContract (.sv0 n) x y
  | .ms0 n m, x, y =>
      match x with
      | full sx fx => .ok (full sx (fx * unwrap y))
      | x => denseContract (.ms0 n m) x y
  | .vv0 n m, x, y =>
      match x, y with
      | full _ fx, full _ fy => .ok (full () (fx * fy))
      | full _ fx, y =>
          if ScalarFns.isZero fx then .ok (zeroes ())
          else .ok (raw (NArr.mkRows (d := n) (ds := [m])
            (fun _ => NArr.map [m] (unwrap y) (fun yj => fx * yj))))
      | x, full _ fy =>
          if ScalarFns.isZero fy then .ok (zeroes ())
          else .ok (raw (NArr.mkRows (d := n) (ds := [m])
            (fun i => NArr.ofElems (d := m)
              (fun _ => NArr.elem (unwrap x) i * fy))))
      | x, y => denseContract (.vv0 n m) x y
  | .sm0 n m, x, y =>
      match y with
      | full sy fy => .ok (full sy (fy * unwrap x))
      | y => denseContract (.sm0 n m) x y
  | .ss1, x, y => .ok (full () (unwrap x * unwrap y))
  | .dot n, x, y =>
      match x, y with
      | full _ fx, full _ fy =>
          (Res.ofOption (ScalarFns.fromUsize n)).map (fun k => full () (k * fx * fy))
      | full _ fx, y => .ok (full () (NArr.fold [n] (unwrap y) 0 (fun acc yi => acc + fx * yi)))
      | x, full _ fy => .ok (full () (NArr.fold [n] (unwrap x) 0 (fun acc xi => acc + xi * fy)))
      | x, y =>
          (Buf.zipFold (.aa [n]) (unwrap x) (unwrap y) 0
            (fun acc p => acc + p.1 * p.2)).map raw
  | .mv n m, x, y =>
      match x, y with
      | full s fx, y =>
          if ScalarFns.isZero fx then .ok (zeroes ())
          else denseContract (.mv n m) (full s fx) y
      | diagonal _ fx, full _ fy => .ok (full () (fx * fy))
      | diagonal s fx, y =>
          if h : m = n then
            .ok (raw (h ▸ NArr.mutate [n] (unwrap y) (fun yi => fx * yi)))
          else denseContract (.mv n m) (diagonal s fx) y
      | raw x, y => denseContract (.mv n m) (raw x) y
  | .mm n z m, x, y =>
      match x, y with
      | full _ fx, full _ fy =>
          (Res.ofOption (ScalarFns.fromUsize z)).map (fun k => full () (k * fx * fy))
      | diagonal sx fx, diagonal sy fy =>
          if n = z ∧ m = n then .ok (diagonal () (fx * fy))
          else denseContract (.mm n z m) (diagonal sx fx) (diagonal sy fy)
      | x, y => denseContract (.mm n z m) x y
  | .vm n m, x, y =>
      match x, y with
      | x, full s fy =>
          if ScalarFns.isZero fy then .ok (zeroes ())
          else denseContract (.vm n m) x (full s fy)
      | full _ fx, diagonal _ fy => .ok (full () (fx * fy))
      | x, diagonal s fy =>
          if h : m = n then
            .ok (raw (h ▸ NArr.mutate [n] (unwrap x) (fun xi => xi * fy)))
          else denseContract (.vm n m) x (diagonal s fy)
      | x, raw y => denseContract (.vm n m) x (raw y)

end BSpec

/-- `Contract::contract_shape` (`contraction_ops.rs` L26-31): always `Ok`, the output types are all
of fixed shape. -/
def contractShape {axes : Nat} {a b c : BTy} : ContractImpl axes a b c → Shp a → Shp b →
    Except IncShapes (Shp c)
  | .ss0, _, _ => .ok ()
  | .vs0 _, _, _ => .ok ()
  | .sv0 _, _, _ => .ok ()
  | .ms0 _ _, _, _ => .ok ()
  | .vv0 _ _, _, _ => .ok ()
  | .sm0 _ _, _, _ => .ok ()
  | .ss1, _, _ => .ok ()
  | .dot _, _, _ => .ok ()
  | .mv _ _, _, _ => .ok ()
  | .mm _ _ _, _, _ => .ok ()
  | .vm _ _, _, _ => .ok ()

end Aegir
