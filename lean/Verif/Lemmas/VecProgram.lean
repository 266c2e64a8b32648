import Verif.Spec.VecProgram
import Verif.Lemmas.Program
/-!
# Programs with vectors
-/

namespace Aegir

open Spec Compile Props
open scoped BigOperators

section Impl

variable {Γ : Id → BTy} {N : ℕ}

/-- The node has an impl of type `τ` to which the theorems about evaluation apply. -/
def Has (Γ : Id → BTy) (n : Node ℝ) (τ : BTy) : Prop := ∃ d : FnImpl Γ n τ, FnImpl.Regular d

namespace Has
variable {l r n : Node ℝ} {τ : BTy} {k : Bool}

theorem var {i : Id} (h : Γ i = τ) : Has Γ (.var i) τ := by
  subst h
  exact ⟨.var i, trivial⟩

theorem const (x : ℝ) : Has Γ (.const .scalar x) .scalar := ⟨.const .scalar x, trivial⟩

theorem constAdj {t : Id} (h : Has Γ n .scalar) (ht : Γ t = kindTy N k) :
    Has Γ (.constAdj n t) (kindTy N k) := by
  obtain ⟨d, hd⟩ := h
  obtain ⟨z⟩ : Nonempty (ConcatImpl .scalar (Γ t) (kindTy N k)) := by
    rw [ht]
    cases k
    exacts [⟨.ss⟩, ⟨.sa [N]⟩]
  exact ⟨.constAdj d t z, hd⟩

/-- Type of the adjoint of a vector. -/
def _root_.Aegir.vecAdjTy (N : ℕ) : Bool → BTy
  | true => .array [N, N]
  | false => .array [N]

theorem varAdjS {i t : Id} (hi : Γ i = .scalar) (ht : Γ t = kindTy N k) :
    Has Γ (.varAdj i t) (kindTy N k) := by
  obtain ⟨z⟩ : Nonempty (ConcatImpl (Γ i) (Γ t) (kindTy N k)) := by
    rw [hi, ht]
    cases k
    exacts [⟨.ss⟩, ⟨.sa [N]⟩]
  have hr : (Γ i).rank ≤ 3 := by rw [hi]; exact Nat.zero_le _
  exact ⟨.varAdj i t z hr, trivial⟩

theorem varAdjV {i t : Id} (hi : Γ i = .array [N]) (ht : Γ t = kindTy N k) :
    Has Γ (.varAdj i t) (vecAdjTy N k) := by
  obtain ⟨z⟩ : Nonempty (ConcatImpl (Γ i) (Γ t) (vecAdjTy N k)) := by
    rw [hi, ht]
    cases k
    exacts [⟨.as [N]⟩, ⟨.aa [N] [N] (by simp)⟩]
  have hr : (Γ i).rank ≤ 3 := by rw [hi]; simp [BTy.rank]
  exact ⟨.varAdj i t z hr, trivial⟩

theorem un (op : UnOp) (h : Has Γ n τ) : Has Γ (.un op n) τ := by
  obtain ⟨d, hd⟩ := h
  exact ⟨.un op d, hd⟩

theorem sum (h : Has Γ n .scalar) : Has Γ (.sum n) .scalar := by
  obtain ⟨d, hd⟩ := h
  exact ⟨.sum d, hd⟩

theorem power (hl : Has Γ l .scalar) (hr : Has Γ r .scalar) : Has Γ (.power l r) .scalar := by
  obtain ⟨d, hd⟩ := hl
  obtain ⟨e, he⟩ := hr
  exact ⟨.power d e, hd, he⟩

theorem addA {ds : Dims} (hl : Has Γ l (.array ds)) (hr : Has Γ r (.array ds)) :
    Has Γ (.add l r) (.array ds) := by
  obtain ⟨d, hd⟩ := hl
  obtain ⟨e, he⟩ := hr
  exact ⟨.add d e (.aa ds), hd, he⟩

theorem subA {ds : Dims} (hl : Has Γ l (.array ds)) (hr : Has Γ r (.array ds)) :
    Has Γ (.sub l r) (.array ds) := by
  obtain ⟨d, hd⟩ := hl
  obtain ⟨e, he⟩ := hr
  exact ⟨.sub d e (.aa ds), hd, he, by simp⟩

theorem addK (hl : Has Γ l (kindTy N k)) (hr : Has Γ r (kindTy N k)) :
    Has Γ (.add l r) (kindTy N k) := by
  cases k
  · obtain ⟨d, hd⟩ := hl
    obtain ⟨e, he⟩ := hr
    exact ⟨.add d e .ss, hd, he⟩
  · exact addA hl hr

theorem subK (hl : Has Γ l (kindTy N k)) (hr : Has Γ r (kindTy N k)) :
    Has Γ (.sub l r) (kindTy N k) := by
  cases k
  · obtain ⟨d, hd⟩ := hl
    obtain ⟨e, he⟩ := hr
    exact ⟨.sub d e .ss, hd, he, fun h => by obtain ⟨_, _, h, _⟩ := h; exact nomatch h⟩
  · exact subA hl hr

theorem mulSK (hl : Has Γ l .scalar) (hr : Has Γ r (kindTy N k)) :
    Has Γ (.mul l r) (kindTy N k) := by
  obtain ⟨d, hd⟩ := hl
  obtain ⟨e, he⟩ := hr
  cases k
  · exact ⟨.mul d e .ss, hd, he⟩
  · exact ⟨.mul d e (.sa [N]), hd, he⟩

theorem mulKS (hl : Has Γ l (kindTy N k)) (hr : Has Γ r .scalar) :
    Has Γ (.mul l r) (kindTy N k) := by
  obtain ⟨d, hd⟩ := hl
  obtain ⟨e, he⟩ := hr
  cases k
  · exact ⟨.mul d e .ss, hd, he⟩
  · exact ⟨.mul d e (.as [N]), hd, he⟩

theorem divKS (hl : Has Γ l (kindTy N k)) (hr : Has Γ r .scalar) :
    Has Γ (.div l r) (kindTy N k) := by
  obtain ⟨d, hd⟩ := hl
  obtain ⟨e, he⟩ := hr
  cases k
  · exact ⟨.div d e .ss, hd, he, by simp⟩
  · exact ⟨.div d e (.as [N]), hd, he, fun h => nomatch h.1⟩

theorem dot (hl : Has Γ l (.array [N])) (hr : Has Γ r (.array [N])) :
    Has Γ (.contract 1 l r) .scalar := by
  obtain ⟨d, hd⟩ := hl
  obtain ⟨e, he⟩ := hr
  exact ⟨.contract d e (.dot N), hd, he, by simp, by simp⟩

theorem dotAdjR (hl : Has Γ l (.array [N])) (hr : Has Γ r (vecAdjTy N k)) :
    Has Γ (.contract 1 l r) (kindTy N k) := by
  cases k
  · exact dot hl hr
  · obtain ⟨d, hd⟩ := hl
    obtain ⟨e, he⟩ := hr
    refine ⟨.contract d e (.vm N N), hd, he, by simp, fun n m _ h h' => ?_⟩
    cases h
    cases h'
    rfl

theorem dotAdjL (hl : Has Γ l (vecAdjTy N k)) (hr : Has Γ r (.array [N])) :
    Has Γ (.contract 1 l r) (kindTy N k) := by
  cases k
  · exact dot hl hr
  · obtain ⟨d, hd⟩ := hl
    obtain ⟨e, he⟩ := hr
    refine ⟨.contract d e (.mv N N), hd, he, fun n m _ h h' => ?_, by simp⟩
    cases h
    cases h'
    rfl

theorem addV (hl : Has Γ l (vecAdjTy N k)) (hr : Has Γ r (vecAdjTy N k)) :
    Has Γ (.add l r) (vecAdjTy N k) := by
  cases k <;> exact addA hl hr

theorem subV (hl : Has Γ l (vecAdjTy N k)) (hr : Has Γ r (vecAdjTy N k)) :
    Has Γ (.sub l r) (vecAdjTy N k) := by
  cases k <;> exact subA hl hr

end Has
end Impl

variable {N : ℕ} {K : Id → Bool}

/-- The types of the variables. -/
abbrev kinds (N : ℕ) (K : Id → Bool) : Id → BTy := fun i => kindTy N (K i)

/-- The tensors of a point. -/
noncomputable abbrev venv (N : ℕ) (K : Id → Bool) (p : VPoint) : Id → Tensor ℝ :=
  envOf (vpointCtx N K p)

theorem venv_eq (p : VPoint) (i : Id) : venv N K p i = .ofBuf (kindBuf N p i (K i)) := rfl

theorem kindBuf_dims (p : VPoint) (i : Id) (k : Bool) :
    Buf.dims _ (kindBuf N p i k) = if k then [N] else [] := by
  cases k <;> rfl

theorem kindBuf_vec (p : VPoint) (i : Id) {j : ℕ} (hj : j < N) :
    Buf.getU _ (kindBuf N p i true) [j] = some (p.vec i j) :=
  Buf.getU_build (.array [N]) () _ [j] (.cons hj .nil)

theorem kindBuf_num (p : VPoint) (i : Id) :
    Buf.getU _ (kindBuf N p i false) [] = some (p.num i) := rfl

theorem venv_dims (p : VPoint) (i : Id) : (venv N K p i).dims = if K i then [N] else [] :=
  kindBuf_dims p i _

theorem venv_vec (p : VPoint) {i : Id} (hi : K i = true) {j : ℕ} (hj : j < N) :
    (venv N K p i).val [j] = p.vec i j := by
  rw [venv_eq, hi]
  simp only [Tensor.ofBuf]
  rw [kindBuf_vec p i hj]
  rfl

theorem venv_num (p : VPoint) {i : Id} (hi : K i = false) : (venv N K p i).val [] = p.num i := by
  rw [venv_eq, hi]
  rfl

/-- Changing an entry of the point changes that entry of the tensors. -/
theorem venv_perturb (p q : VPoint) (t : Id) (k : Idx) (s : ℝ)
    (hk : InBounds (if K t then [N] else []) k)
    (ht : Buf.getU _ (kindBuf N q t (K t)) k = some s)
    (hq : ∀ ix, ix ≠ k → InBounds (if K t then [N] else []) ix →
      Buf.getU _ (kindBuf N q t (K t)) ix = Buf.getU _ (kindBuf N p t (K t)) ix)
    (ho : ∀ i, i ≠ t → kindBuf N q i (K i) = kindBuf N p i (K i)) :
    venv N K q = perturb (venv N K p) t k s := by
  have hb : vpointCtx N K p t = some (kindBuf N p t (K t)) := rfl
  have hk' : InBounds (Buf.dims _ (kindBuf N p t (K t))) k := by rwa [kindBuf_dims]
  rw [← envOf_write _ hb hk' s]
  have : vpointCtx N K q = (vpointCtx N K p).write t (setEntry (kindBuf N p t (K t)) k s) := by
    funext i
    unfold Ctx.write
    split
    · rename_i hi
      subst hi
      show some _ = some _
      refine congrArg some ?_
      refine Buf.ext _ _ _ ?_ fun ix hix => ?_
      · rw [shape_setEntry]
        cases K i <;> rfl
      · rw [kindBuf_dims] at hix
        rw [getU_setEntry _ _ _ (by rwa [kindBuf_dims])]
        split
        · subst_vars
          exact ht
        · rename_i hne
          rw [hq ix hne hix]
          obtain ⟨x, hx⟩ := Buf.getU_some _ (kindBuf N p i (K i)) ix (by rwa [kindBuf_dims])
          rw [hx]
          rfl
    · rename_i hi
      exact congrArg some (ho i hi)
  rw [venv, this]

theorem venv_setVec (p : VPoint) {t : Id} (ht : K t = true) {k : ℕ} (hk : k < N) (s : ℝ) :
    venv N K (p.setVec t k s) = perturb (venv N K p) t [k] s := by
  refine venv_perturb p _ t [k] s ?_ ?_ ?_ ?_
  · rw [ht]
    exact .cons hk .nil
  · rw [ht, kindBuf_vec _ _ hk]
    simp [VPoint.setVec]
  · rw [ht]
    intro ix hne hix
    cases hix with
    | cons hj h =>
      cases h
      rename_i j
      rw [kindBuf_vec _ _ hj, kindBuf_vec _ _ hj]
      simp [VPoint.setVec]
      rintro rfl
      exact absurd rfl hne
  · intro i hi
    cases K i
    · rfl
    · simp only [kindBuf, VPoint.setVec, hi, false_and, if_false]
      rfl

theorem venv_setNum (p : VPoint) {t : Id} (ht : K t = false) (s : ℝ) :
    venv N K (p.setNum t s) = perturb (venv N K p) t [] s := by
  refine venv_perturb p _ t [] s ?_ ?_ ?_ ?_
  · rw [ht]
    exact .nil
  · rw [ht, kindBuf_num]
    simp [VPoint.setNum]
  · rw [ht]
    intro ix hne hix
    cases hix
    exact absurd rfl hne
  · intro i hi
    cases K i
    · simp only [kindBuf, VPoint.setNum, hi, if_false]
      rfl
    · rfl

/-- The node `n` stands for the vector `f`. -/
structure VRep (N : ℕ) (K : Id → Bool) (n : Node ℝ) (f : VPoint → ℕ → ℝ) : Prop where
  free : CacheFree n
  has : Has (kinds N K) n (.array [N])
  adj : ∀ t, ∃ n', n.adjoint t = some n' ∧ Has (kinds N K) n' (vecAdjTy N (K t))
  den : ∀ p, (den (venv N K p) n).dims = [N] ∧ ∀ k < N, (den (venv N K p) n).val [k] = f p k
  affine : ∀ ρ t, Affine ρ t n
  smooth : ∀ p t, Smooth (venv N K p) t n

/-- The node `n` stands for the number `f`. -/
structure SRep (N : ℕ) (K : Id → Bool) (n : Node ℝ) (f : VPoint → ℝ) (A D : VPoint → Prop) : Prop where
  free : CacheFree n
  has : Has (kinds N K) n .scalar
  adj : ∀ t, ∃ n', n.adjoint t = some n' ∧ Has (kinds N K) n' (kindTy N (K t))
  den : ∀ p, (den (venv N K p) n).dims = [] ∧ (den (venv N K p) n).val [] = f p
  safe : ∀ p, A p → PowSafe (venv N K p) n
  smooth : ∀ p t, D p → Smooth (venv N K p) t n

/-- The node stands for the meaning. -/
def Rep (N : ℕ) (K : Id → Bool) (n : Node ℝ) : VMeaning → Prop
  | .num f A D => SRep N K n f A D
  | .vec f => VRep N K n f

namespace VRep
variable {l r n : Node ℝ} {f g : VPoint → ℕ → ℝ}

theorem var {i : Id} (hi : K i = true) : VRep N K (.var i) fun p => p.vec i where
  free := by simp [CacheFree]
  has := .var (by rw [kinds, hi]; rfl)
  adj t := ⟨_, rfl, .varAdjV (by rw [kinds, hi]; rfl) rfl⟩
  den p := ⟨(venv_dims p i).trans (by rw [hi]; rfl), fun k hk => venv_vec p hi hk⟩
  affine _ _ := .var i
  smooth _ _ := trivial

theorem zip {S T : Tensor ℝ} (h : ℝ → ℝ → ℝ) {x y : ℕ → ℝ}
    (hS : S.dims = [N] ∧ ∀ k < N, S.val [k] = x k) (hT : T.dims = [N] ∧ ∀ k < N, T.val [k] = y k) :
    (Tensor.zip h S T).dims = [N] ∧ ∀ k < N, (Tensor.zip h S T).val [k] = h (x k) (y k) := by
  refine ⟨by simp [Tensor.zip, hS.1], fun k hk => ?_⟩
  simp [Tensor.zip, hS.1, hT.1, bIdx, hS.2 k hk, hT.2 k hk]

theorem add (hl : VRep N K l f) (hr : VRep N K r g) :
    VRep N K (.add l r) fun p k => f p k + g p k where
  free n i h := by
    rcases (SubExpr.add).1 h with h | h | h
    exacts [(nomatch h), hl.free n i h, hr.free n i h]
  has := hl.has.addA hr.has
  adj t := by
    obtain ⟨l', h1, h2⟩ := hl.adj t
    obtain ⟨r', h3, h4⟩ := hr.adj t
    exact ⟨.add l' r', by simp only [Node.adjoint, h1, h3]; rfl, h2.addV h4⟩
  den p := zip _ (hl.den p) (hr.den p)
  affine ρ t := .add (hl.affine ρ t) (hr.affine ρ t)
  smooth p t := ⟨hl.smooth p t, hr.smooth p t⟩

theorem sub (hl : VRep N K l f) (hr : VRep N K r g) :
    VRep N K (.sub l r) fun p k => f p k - g p k where
  free n i h := by
    rcases (SubExpr.sub).1 h with h | h | h
    exacts [(nomatch h), hl.free n i h, hr.free n i h]
  has := hl.has.subA hr.has
  adj t := by
    obtain ⟨l', h1, h2⟩ := hl.adj t
    obtain ⟨r', h3, h4⟩ := hr.adj t
    exact ⟨.sub l' r', by simp only [Node.adjoint, h1, h3]; rfl, h2.subV h4⟩
  den p := zip _ (hl.den p) (hr.den p)
  affine ρ t := .sub (hl.affine ρ t) (hr.affine ρ t)
  smooth p t := ⟨hl.smooth p t, hr.smooth p t⟩

theorem neg (h : VRep N K n f) : VRep N K (.un .negate n) fun p k => -f p k where
  free m i hs := by
    rcases (SubExpr.un _).1 hs with hs | hs
    exacts [(nomatch hs), h.free m i hs]
  has := h.has.un _
  adj t := by
    obtain ⟨n', h1, h2⟩ := h.adj t
    exact ⟨.un .negate n', by simp only [Node.adjoint, h1]; rfl, h2.un _⟩
  den p := ⟨(h.den p).1, fun k hk => congrArg (- ·) ((h.den p).2 k hk)⟩
  affine ρ t := .un (by simp) (h.affine ρ t)
  smooth p t := ⟨h.smooth p t, fun _ _ => trivial⟩

theorem dot (hl : VRep N K l f) (hr : VRep N K r g) :
    SRep N K (.contract 1 l r) (fun p => ∑ k ∈ Finset.range N, f p k * g p k) (fun _ => True)
      fun _ => True where
  free n i h := by
    rcases (SubExpr.contract _).1 h with h | h | h
    exacts [(nomatch h), hl.free n i h, hr.free n i h]
  has := hl.has.dot hr.has
  adj t := by
    obtain ⟨l', h1, h2⟩ := hl.adj t
    obtain ⟨r', h3, h4⟩ := hr.adj t
    exact ⟨.add (.contract 1 l r') (.contract 1 l' r), by simp only [Node.adjoint, h1, h3]; rfl,
      (hl.has.dotAdjR h4).addK (h2.dotAdjL hr.has)⟩
  den p := by
    obtain ⟨a, b⟩ := hl.den p
    obtain ⟨c, d⟩ := hr.den p
    refine ⟨by simp [Spec.den, Tensor.contract, a, c], ?_⟩
    simp only [Spec.den, Tensor.contract, a, c]
    simp [sumOver]
    refine Finset.sum_congr rfl fun k hk => ?_
    rw [b k (Finset.mem_range.1 hk), d k (Finset.mem_range.1 hk)]
  safe p _ := by
    intro l' r' h
    rcases (SubExpr.contract _).1 h with h | h | h
    · exact nomatch h
    · exact powSafe_of_smooth (hl.smooth p 0) _ _ h
    · exact powSafe_of_smooth (hr.smooth p 0) _ _ h
  smooth p t _ := by
    refine ⟨hl.smooth p t, hr.smooth p t, ?_⟩
    cases ht : K t
    · exact .inl ((venv_dims p t).trans (by rw [ht]; rfl))
    · exact .inr (.inr (.inr ⟨rfl, ⟨N, (venv_dims p t).trans (by rw [ht]; rfl), (hl.den p).1,
        (hr.den p).1⟩, hl.affine _ _⟩))

end VRep

theorem subExpr_bin {l r s e : Node ℝ} (hc : children e = [l, r]) (h : SubExpr s e) :
    s = e ∨ SubExpr s l ∨ SubExpr s r := by
  rw [SubExpr.iff_children, hc] at h
  simpa using h

namespace SRep
variable {l r n : Node ℝ} {f g : VPoint → ℝ} {A B D E : VPoint → Prop}

theorem var {i : Id} (hi : K i = false) :
    SRep N K (.var i) (fun p => p.num i) (fun _ => True) fun _ => True where
  free := by simp [CacheFree]
  has := .var (by rw [kinds, hi]; rfl)
  adj t := ⟨_, rfl, .varAdjS (by rw [kinds, hi]; rfl) rfl⟩
  den p := ⟨(venv_dims p i).trans (by rw [hi]; rfl), venv_num p hi⟩
  safe _ _ := by simp [PowSafe]
  smooth _ _ _ := trivial

theorem const (x : ℝ) :
    SRep N K (.const .scalar x) (fun _ => x) (fun _ => True) fun _ => True where
  free := by simp [CacheFree]
  has := .const x
  adj t := ⟨_, rfl, (Has.const x).constAdj rfl⟩
  den _ := ⟨rfl, rfl⟩
  safe _ _ := by simp [PowSafe]
  smooth _ _ _ := trivial

theorem free_bin {e : Node ℝ} (hl : CacheFree l) (hr : CacheFree r) (hc : children e = [l, r])
    (he : ∀ n i, .cached n i ≠ e) : CacheFree e := fun n i h => by
  rcases subExpr_bin hc h with h | h | h
  exacts [he n i h, hl n i h, hr n i h]

theorem safe_bin {ρ : Id → Tensor ℝ} {e : Node ℝ} (hl : PowSafe ρ l) (hr : PowSafe ρ r)
    (hc : children e = [l, r]) (he : ∀ a b, .power a b ≠ e) : PowSafe ρ e := fun a b h => by
  rcases subExpr_bin hc h with h | h | h
  exacts [absurd h (he a b), hl a b h, hr a b h]

theorem add (hl : SRep N K l f A D) (hr : SRep N K r g B E) :
    SRep N K (.add l r) (fun p => f p + g p) (fun p => A p ∧ B p) fun p => D p ∧ E p where
  free := free_bin hl.free hr.free rfl nofun
  has := hl.has.addK (k := false) (N := N) hr.has
  adj t := by
    obtain ⟨l', h1, h2⟩ := hl.adj t
    obtain ⟨r', h3, h4⟩ := hr.adj t
    exact ⟨.add l' r', by simp only [Node.adjoint, h1, h3]; rfl, h2.addK h4⟩
  den p := Represents.zip _ (hl.den p) (hr.den p)
  safe p h := safe_bin (hl.safe p h.1) (hr.safe p h.2) rfl nofun
  smooth p t h := ⟨hl.smooth p t h.1, hr.smooth p t h.2⟩

theorem sub (hl : SRep N K l f A D) (hr : SRep N K r g B E) :
    SRep N K (.sub l r) (fun p => f p - g p) (fun p => A p ∧ B p) fun p => D p ∧ E p where
  free := free_bin hl.free hr.free rfl nofun
  has := hl.has.subK (k := false) (N := N) hr.has
  adj t := by
    obtain ⟨l', h1, h2⟩ := hl.adj t
    obtain ⟨r', h3, h4⟩ := hr.adj t
    exact ⟨.sub l' r', by simp only [Node.adjoint, h1, h3]; rfl, h2.subK h4⟩
  den p := Represents.zip _ (hl.den p) (hr.den p)
  safe p h := safe_bin (hl.safe p h.1) (hr.safe p h.2) rfl nofun
  smooth p t h := ⟨hl.smooth p t h.1, hr.smooth p t h.2⟩

theorem mul (hl : SRep N K l f A D) (hr : SRep N K r g B E) :
    SRep N K (.mul l r) (fun p => f p * g p) (fun p => A p ∧ B p) fun p => D p ∧ E p where
  free := free_bin hl.free hr.free rfl nofun
  has := hl.has.mulSK (k := false) (N := N) hr.has
  adj t := by
    obtain ⟨l', h1, h2⟩ := hl.adj t
    obtain ⟨r', h3, h4⟩ := hr.adj t
    exact ⟨.add (.mul l' r) (.mul r' l), by simp only [Node.adjoint, h1, h3]; rfl,
      (h2.mulKS hr.has).addK (h4.mulKS hl.has)⟩
  den p := Represents.zip _ (hl.den p) (hr.den p)
  safe p h := safe_bin (hl.safe p h.1) (hr.safe p h.2) rfl nofun
  smooth p t h := ⟨hl.smooth p t h.1, hr.smooth p t h.2⟩

theorem div (hl : SRep N K l f A D) (hr : SRep N K r g B E) :
    SRep N K (.div l r) (fun p => f p / g p) (fun p => A p ∧ B p)
      fun p => D p ∧ E p ∧ g p ≠ 0 where
  free := free_bin hl.free hr.free rfl nofun
  has := hl.has.divKS (k := false) (N := N) hr.has
  adj t := by
    obtain ⟨l', h1, h2⟩ := hl.adj t
    obtain ⟨r', h3, h4⟩ := hr.adj t
    exact ⟨.div (.sub (.mul r l') (.mul l r')) (.un .square r),
      by simp only [Node.adjoint, h1, h3]; rfl,
      ((hr.has.mulSK h2).subK (hl.has.mulSK h4)).divKS (hr.has.un _)⟩
  den p := Represents.zip _ (hl.den p) (hr.den p)
  safe p h := safe_bin (hl.safe p h.1) (hr.safe p h.2) rfl nofun
  smooth p t h := ⟨hl.smooth p t h.1, hr.smooth p t h.2.1, fun ix hix => by
    rw [(hr.den p).1] at hix
    cases hix
    rw [(hr.den p).2]
    exact h.2.2⟩

theorem power_adj (hl : SRep N K l f A D) (hr : SRep N K r g B E) (t : Id) :
    ∃ n', (Node.power l r).adjoint t = some n' ∧ Has (kinds N K) n' (kindTy N (K t)) := by
  obtain ⟨l', h1, h2⟩ := hl.adj t
  obtain ⟨r', h3, h4⟩ := hr.adj t
  exact ⟨.mul (.power l (.un .subOne r)) (.add (.mul r l') (.mul (.un .xlnx l) r')),
    by simp only [Node.adjoint, h1, h3]; rfl,
    (hl.has.power (hr.has.un _)).mulSK ((hr.has.mulSK h2).addK ((hl.has.un _).mulSK h4))⟩

theorem power (hl : SRep N K l f A D) (hr : SRep N K r g B E) :
    SRep N K (.power l r) (fun p => f p ^ g p) (fun p => A p ∧ B p ∧ (f p ≠ 0 ∨ g p ≠ 0))
      fun p => D p ∧ E p ∧ 0 < f p where
  free := free_bin hl.free hr.free rfl nofun
  has := hl.has.power hr.has
  adj := power_adj hl hr
  den p := ⟨rfl, by
    show ScalarFns.pow _ _ = _
    rw [(hl.den p).2, (hr.den p).2]
    rfl⟩
  safe p h a b hs := by
    rcases SubExpr.power.1 hs with hs | hs | hs
    · cases hs
      refine .inr fun h0 => ?_
      rw [(hl.den p).2] at h0
      rw [(hr.den p).2]
      exact Real.zero_rpow (h.2.2.resolve_left (absurd h0))
    · exact hl.safe p h.1 a b hs
    · exact hr.safe p h.2.1 a b hs
  smooth p t h := ⟨hl.smooth p t h.1, hr.smooth p t h.2.1, .inl (by rw [(hl.den p).2]; exact h.2.2)⟩

theorem natPower (hl : SRep N K l f A D) {x : ℝ} {m : ℕ} (hx : x = m) (hm : 1 ≤ m) :
    SRep N K (.power l (.const .scalar x)) (fun p => f p ^ m) A
      fun p => D p ∧ (f p ≠ 0 ∨ 2 ≤ m) where
  free := free_bin hl.free (SRep.const (N := N) (K := K) x).free rfl nofun
  has := hl.has.power (.const x)
  adj := power_adj hl (const x)
  den p := ⟨rfl, by
    show ScalarFns.pow _ x = _
    rw [(hl.den p).2, hx]
    exact Real.rpow_natCast _ _⟩
  safe p h a b hs := by
    rcases SubExpr.power.1 hs with hs | hs | hs
    · cases hs
      refine .inr fun _ => ?_
      show Real.rpow 0 x = 0
      rw [hx]
      exact Real.zero_rpow (by positivity)
    · exact hl.safe p h a b hs
    · simp at hs
  smooth p t h := by
    refine ⟨hl.smooth p t h.1, trivial, .inr ⟨?_, m, hm, hx, .inr ?_⟩⟩
    · intro ho
      cases ho with
      | child hc _ => cases hc
    · rw [(hl.den p).2]
      exact h.2

theorem un (h : SRep N K n f A D) (op : UnOp)
    (ho : op ∈ [UnOp.abs, .negate, .ln, .square, .sigmoid])
    (hD : ∀ p, E p → D p ∧ UnOp.SmoothAt op (f p)) :
    SRep N K (.un op n) (fun p => op.apply (f p)) A E where
  free m i hs := by
    rcases (SubExpr.un _).1 hs with hs | hs
    exacts [(nomatch hs), h.free m i hs]
  has := h.has.un _
  adj t := by
    obtain ⟨n', h1, h2⟩ := h.adj t
    simp only [List.mem_cons, List.not_mem_nil, or_false] at ho
    rcases ho with rfl | rfl | rfl | rfl | rfl
    · exact ⟨_, by simp only [Node.adjoint, h1]; rfl, (h.has.un _).mulSK h2⟩
    · exact ⟨_, by simp only [Node.adjoint, h1]; rfl, h2.un _⟩
    · exact ⟨_, by simp only [Node.adjoint, h1]; rfl, h2.divKS h.has⟩
    · exact ⟨_, by simp only [Node.adjoint, h1]; rfl, (h.has.un _).mulSK h2⟩
    · exact ⟨_, by simp only [Node.adjoint, h1]; rfl, h2.mulKS ((h.has.un _).un _)⟩
  den p := ⟨(h.den p).1, congrArg op.apply (h.den p).2⟩
  safe p hp a b hs := by
    rcases (SubExpr.un _).1 hs with hs | hs
    exacts [(nomatch hs), h.safe p hp a b hs]
  smooth p t hd := ⟨h.smooth p t (hD p hd).1, fun ix hix => by
    rw [(h.den p).1] at hix
    cases hix
    rw [(h.den p).2]
    exact (hD p hd).2⟩

theorem sum (h : SRep N K n f A D) : SRep N K (.sum n) f A D where
  free m i hs := by
    rcases SubExpr.sum.1 hs with hs | hs
    exacts [(nomatch hs), h.free m i hs]
  has := h.has.sum
  adj := h.adj
  den p := ⟨rfl, by
    show sumOver _ _ = _
    rw [(h.den p).1]
    simpa [sumOver] using (h.den p).2⟩
  safe p hp a b hs := by
    rcases SubExpr.sum.1 hs with hs | hs
    exacts [(nomatch hs), h.safe p hp a b hs]
  smooth p t hd := ⟨h.smooth p t hd, (h.den p).1⟩

theorem congr (h : SRep N K n f A D) (hf : ∀ p, f p = g p) (hA : ∀ p, B p → A p)
    (hD : ∀ p, E p → D p) : SRep N K n g B E :=
  ⟨h.free, h.has, h.adj, fun p => ⟨(h.den p).1, (h.den p).2.trans (hf p)⟩,
    fun p hp => h.safe p (hA p hp), fun p t hd => h.smooth p t (hD p hd)⟩

theorem square (h : SRep N K n f A D) : SRep N K (.un .square n) (fun p => f p ^ 2) A D := by
  refine (h.un .square (by simp) fun p hd => ⟨hd, trivial⟩).congr (fun p => ?_) (fun _ h => h)
    fun _ hd => hd
  show ScalarFns.pow _ (1 + 1) = _
  rw [one_add_one_eq_two]
  exact Real.rpow_two _

/-- What the node computes. -/
theorem evaluates (h : SRep N K n f A D) (p : VPoint) (hp : PowSafe (venv N K p) n)
    (d : FnImpl (kinds N K) n .scalar) (hr : FnImpl.Regular d) :
    (d.evaluate (vpointCtx N K p)).1 = .ok (f p) := by
  obtain ⟨n', hn, da, hra⟩ := h.adj 0
  obtain ⟨⟨x, hx⟩, -⟩ := eval_total hn h.free d da hr hra (vpointCtx N K p)
    (fun _ _ => Option.some_ne_none _) (Option.some_ne_none _)
  have := (den_of_eval h.free d hr hp hx).2 [] (by rw [(h.den p).1]; exact .nil)
  rw [(h.den p).2] at this
  rw [hx]
  exact congrArg Res.ok (Option.some.inj this)

/-- What its adjoint computes. -/
theorem differentiates {n' : Node ℝ} (h : SRep N K n f A D) {t : Id} (hn : n.adjoint t = some n')
    {p : VPoint} (hp : D p) {σ : BTy} (da : FnImpl (kinds N K) n' σ) (hra : FnImpl.Regular da) :
    ∃ a, (da.evaluate (vpointCtx N K p)).1 = .ok a ∧
      ∀ ix, InBounds (if K t then [N] else []) ix → ∃ g, Buf.getU σ a ix = some g ∧
        HasDerivAt (fun s => (Spec.den (perturb (venv N K p) t ix s) n).val []) g
          ((venv N K p t).val ix) := by
  obtain ⟨d, hr⟩ := h.has
  obtain ⟨⟨x, hx⟩, a, ha⟩ := eval_total hn h.free d da hr hra (vpointCtx N K p)
    (fun _ _ => Option.some_ne_none _) (Option.some_ne_none _)
  have hs := h.smooth p t hp
  have hcv := compat_of_eval h.free d hr hx
  have hca := compat_of_eval (adjoint_cacheFree hn h.free) da hra ha
  have hda := den_of_eval (adjoint_cacheFree hn h.free) da hra (powSafe_adjoint hn hs) ha
  have hdd : ∀ {ix}, InBounds (venv N K p t).dims ix →
      (Spec.den (venv N K p) n').dims = (if K t then [N] else []) := fun hk => by
    rw [(den_deriv hn hcv hca hs hk).1, (h.den p).1, venv_dims]
    rfl
  refine ⟨a, ha, fun ix hix => ?_⟩
  have hk : InBounds (venv N K p t).dims ix := by rwa [venv_dims]
  refine ⟨_, hda.2 ix (by rwa [hdd hk]), ?_⟩
  exact (den_deriv hn hcv hca hs hk).2 [] (by rw [(h.den p).1]; exact .nil)

/-- The gradient in a vector. -/
theorem gradient {n' : Node ℝ} (h : SRep N K n f A D) {t : Id} (ht : K t = true)
    (hn : n.adjoint t = some n') {p : VPoint} (hp : D p) {σ : BTy} (da : FnImpl (kinds N K) n' σ)
    (hra : FnImpl.Regular da) :
    ∃ a, (da.evaluate (vpointCtx N K p)).1 = .ok a ∧ ∀ k < N, ∃ g, Buf.getU σ a [k] = some g ∧
      HasDerivAt (fun s => f (p.setVec t k s)) g (p.vec t k) := by
  obtain ⟨a, ha, hd⟩ := h.differentiates hn hp da hra
  refine ⟨a, ha, fun k hk => ?_⟩
  obtain ⟨g, hg, hd⟩ := hd [k] (by rw [ht]; exact .cons hk .nil)
  refine ⟨g, hg, ?_⟩
  rw [venv_vec p ht hk] at hd
  convert hd using 2 with s
  rw [← venv_setVec p ht hk, (h.den _).2]

/-- The derivative in a number. -/
theorem derivative {n' : Node ℝ} (h : SRep N K n f A D) {t : Id} (ht : K t = false)
    (hn : n.adjoint t = some n') {p : VPoint} (hp : D p) {σ : BTy} (da : FnImpl (kinds N K) n' σ)
    (hra : FnImpl.Regular da) :
    ∃ a g, (da.evaluate (vpointCtx N K p)).1 = .ok a ∧ Buf.getU σ a [] = some g ∧
      HasDerivAt (fun s => f (p.setNum t s)) g (p.num t) := by
  obtain ⟨a, ha, hd⟩ := h.differentiates hn hp da hra
  obtain ⟨g, hg, hd⟩ := hd [] (by rw [ht]; exact .nil)
  refine ⟨a, g, ha, hg, ?_⟩
  rw [venv_num p ht] at hd
  convert hd using 2 with s
  rw [← venv_setNum p ht, (h.den _).2]

end SRep

/-- What the node of a vector computes. -/
theorem VRep.evaluates {n : Node ℝ} {f : VPoint → ℕ → ℝ} (h : VRep N K n f) (p : VPoint)
    (d : FnImpl (kinds N K) n (.array [N])) (hr : FnImpl.Regular d) :
    (d.evaluate (vpointCtx N K p)).1 = .ok (Buf.build (.array [N]) () fun ix => f p (ix.headD 0)) := by
  obtain ⟨n', hn, da, hra⟩ := h.adj 0
  obtain ⟨⟨x, hx⟩, -⟩ := eval_total hn h.free d da hr hra (vpointCtx N K p)
    (fun _ _ => Option.some_ne_none _) (Option.some_ne_none _)
  have := den_of_eval h.free d hr (powSafe_of_smooth (h.smooth p 0)) hx
  rw [hx]
  refine congrArg Res.ok (Buf.ext _ _ _ rfl fun ix hix => ?_)
  have hix' : InBounds [N] ix := hix
  rw [Buf.getU_build (.array [N]) () _ ix hix', this.2 ix (by rw [(h.den p).1]; exact hix')]
  cases hix' with
  | cons hk h' =>
    cases h'
    rw [(h.den p).2 _ hk]
    rfl

theorem rep_of_computes {num : String → ℝ} (h2 : num "2.0" = 2)
    {ρ : String → Option VMeaning} {env : String → Option (Node ℝ)}
    (hρ : ∀ p m, ρ p = some m → ∃ n, env p = some n ∧ Rep N K n m) {e : Compile.Expr} {m : VMeaning}
    (h : ComputesV N num ρ e m) : ∃ n, Stands env (floats num) e n ∧ Rep N K n m := by
  induction h with
  | path hp =>
    obtain ⟨n, hn, hr⟩ := hρ _ _ hp
    exact ⟨n, .path hn, hr⟩
  | paren _ ih =>
    obtain ⟨n, hn, hr⟩ := ih
    exact ⟨n, .paren hn, hr⟩
  | addV _ _ ihl ihr =>
    obtain ⟨n, hn, hr⟩ := ihl
    obtain ⟨n', hn', hr'⟩ := ihr
    exact ⟨_, .add hn hn', VRep.add hr hr'⟩
  | subV _ _ ihl ihr =>
    obtain ⟨n, hn, hr⟩ := ihl
    obtain ⟨n', hn', hr'⟩ := ihr
    exact ⟨_, .sub hn hn', VRep.sub hr hr'⟩
  | negV _ ih =>
    obtain ⟨n, hn, hr⟩ := ih
    exact ⟨_, .call0 (op := .negate) hn (by simp), VRep.neg hr⟩
  | dot _ _ ihl ihr =>
    obtain ⟨n, hn, hr⟩ := ihl
    obtain ⟨n', hn', hr'⟩ := ihr
    exact ⟨_, .dot hn hn', VRep.dot hr hr'⟩
  | float t => exact ⟨_, .float rfl, SRep.const _⟩
  | add _ _ ihl ihr =>
    obtain ⟨n, hn, hr⟩ := ihl
    obtain ⟨n', hn', hr'⟩ := ihr
    exact ⟨_, .add hn hn', SRep.add hr hr'⟩
  | sub _ _ ihl ihr =>
    obtain ⟨n, hn, hr⟩ := ihl
    obtain ⟨n', hn', hr'⟩ := ihr
    exact ⟨_, .sub hn hn', SRep.sub hr hr'⟩
  | mul _ _ ihl ihr =>
    obtain ⟨n, hn, hr⟩ := ihl
    obtain ⟨n', hn', hr'⟩ := ihr
    exact ⟨_, .mul hn hn', SRep.mul hr hr'⟩
  | @pow l r f g A B D E hl hr0 ihl ihr =>
    obtain ⟨n, hn, hr⟩ := ihl
    obtain ⟨n', hn', hr'⟩ := ihr
    by_cases h : IsTwo r
    · refine ⟨_, .square hn h, (SRep.square hr).congr (fun v => ?_) (fun v h => h.1)
        fun v hd => hd.1⟩
      have : g v = 2 := by
        rcases h with rfl | rfl <;> cases hr0
        exact h2
      rw [this]
      exact (Real.rpow_two _).symm
    · exact ⟨_, .power hn hn' h, SRep.power hr hr'⟩
  | @natPow l t f A D n hl hx h1 ih =>
    obtain ⟨n', hn, hr⟩ := ih
    by_cases h : IsTwo (.lit (.float t))
    · refine ⟨_, .square hn h, (SRep.square hr).congr (fun v => ?_) (fun v h => h)
        fun v hd => hd.1⟩
      have : (n : ℝ) = (2 : ℕ) := by
        rw [← hx]
        simp only [IsTwo, reduceCtorEq, Expr.lit.injEq, Lit.float.injEq, false_or] at h
        rw [h, h2]
        norm_num
      rw [Nat.cast_injective this]
    · exact ⟨_, .power hn (.float rfl) h, SRep.natPower hr hx h1⟩
  | square _ ht ih =>
    obtain ⟨n, hn, hr⟩ := ih
    exact ⟨_, .square hn ht, SRep.square hr⟩
  | abs _ ih =>
    obtain ⟨n, hn, hr⟩ := ih
    exact ⟨_, .call0 (op := .abs) hn (by simp), SRep.un hr .abs (by simp) fun _ hd => hd⟩
  | neg _ ih =>
    obtain ⟨n, hn, hr⟩ := ih
    exact ⟨_, .call0 (op := .negate) hn (by simp),
      SRep.un hr .negate (by simp) fun _ hd => ⟨hd, trivial⟩⟩
  | ln _ ih =>
    obtain ⟨n, hn, hr⟩ := ih
    exact ⟨_, .call0 (op := .ln) hn (by simp), SRep.un hr .ln (by simp) fun _ hd => hd⟩
  | squared _ ih =>
    obtain ⟨n, hn, hr⟩ := ih
    exact ⟨_, .call0 (op := .square) hn (by simp), SRep.square hr⟩
  | sigmoid _ ih =>
    obtain ⟨n, hn, hr⟩ := ih
    exact ⟨_, .call0 (op := .sigmoid) hn (by simp), (SRep.un hr .sigmoid (by simp) fun _ hd =>
      ⟨hd, trivial⟩).congr (fun v => sigmoid_eq _) (fun _ h => h) fun _ hd => hd⟩
  | sum _ ih =>
    obtain ⟨n, hn, hr⟩ := ih
    exact ⟨_, .sum hn, SRep.sum hr⟩
  | div _ _ ihl ihr =>
    obtain ⟨n, hn, hr⟩ := ihl
    obtain ⟨n', hn', hr'⟩ := ihr
    exact ⟨_, .div hn hn', SRep.div hr hr'⟩

/-- Nodes for all meanings. -/
def VEnvFor (N : ℕ) (K : Id → Bool) (ρ : String → Option VMeaning) (env : String → Option (Node ℝ)) :
    Prop := ∀ p m, ρ p = some m → ∃ n, env p = some n ∧ Rep N K n m

theorem constructs_of_computesV {num : String → ℝ} (h2 : num "2.0" = 2)
    {ρ : String → Option VMeaning} {env : String → Option (Node ℝ)} (hρ : VEnvFor N K ρ env)
    {e : Compile.Expr} {m : VMeaning} (h : ComputesV N num ρ e m) :
    ∃ n, Constructs env (floats num) e n ∧ Rep N K n m := by
  obtain ⟨n, hs, hr⟩ := rep_of_computes h2 hρ h
  exact ⟨n, C41_expansion env (floats num) e n hs, hr⟩

theorem compiles_of_bindsV {num : String → ℝ} (h2 : num "2.0" = 2)
    {ρ ρ' : String → Option VMeaning} {bs : List (String × Compile.Expr)} (h : BindsV N num ρ bs ρ')
    {env : String → Option (Node ℝ)} (hρ : VEnvFor N K ρ env) :
    ∃ env', Compiles (floats num) env bs env' ∧ VEnvFor N K ρ' env' := by
  induction h generalizing env with
  | nil ρ => exact ⟨env, .nil _, hρ⟩
  | @cons ρ ρ' p e m bs hc _ ih =>
    obtain ⟨n, hn, hr⟩ := constructs_of_computesV h2 hρ hc
    obtain ⟨env', h1, h2⟩ := ih (env := fun q => if q = p then some n else env q) (by
      intro q k hq
      dsimp only at hq ⊢
      split at hq
      · cases hq
        exact ⟨n, if_pos (by assumption), hr⟩
      · rename_i hqp
        rw [if_neg hqp]
        exact hρ q k hq)
    exact ⟨env', .cons hn h1, h2⟩

end Aegir
