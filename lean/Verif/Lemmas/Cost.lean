import Verif.Spec.Cost
import Verif.Spec.Contexts
import Verif.Lemmas.Node
import Mathlib.Tactic.Linarith
import Mathlib.Tactic.Ring
/-!
# Recorded accesses, and sizes of adjoints
-/

namespace Aegir

open Spec

variable {F : Type} {Γ : Id → BTy} {σ α β γ : Type}

/-! ### Forgetting the record -/

/-- `m` does what `m'` does. -/
def Erases (m : TM σ α) (m' : SM σ α) : Prop := ∀ s, ((m s).1, (m s).2.1) = m' s

namespace Erases

theorem map {m : TM σ α} {m' : SM σ α} (h : Erases m m') (f : α → β) :
    Erases (m.map f) (m'.map f) := fun s => by
  have := h s
  simp only [TM.map, SM.map, ← this]

theorem mapErr {m : TM σ α} {m' : SM σ α} (h : Erases m m') (f : EvalErr → EvalErr) :
    Erases (m.mapErr f) (m'.mapErr f) := fun s => by
  have := h s
  simp only [TM.mapErr, SM.mapErr, ← this]

theorem bind {m : TM σ α} {m' : SM σ α} {f : α → TM σ β} {f' : α → SM σ β} (h : Erases m m')
    (hf : ∀ a, Erases (f a) (f' a)) : Erases (m.bind f) (m'.bind f') := fun s => by
  have h0 := h s
  simp only [TM.bind, SM.bind, ← h0]
  rcases m s with ⟨r, s', as⟩
  cases r with
  | ok a => exact hf a s'
  | err e => rfl
  | panic => rfl

theorem lift (r : Res EvalErr α) : Erases (TM.lift r : TM σ α) (SM.lift r) := fun _ => rfl

theorem get (a : Acc) (i : Id) (r : σ → Option α) : Erases (TM.get a i r) (SM.get i r) := fun s => by
  simp only [TM.get, SM.get]
  cases r s <;> rfl

theorem bin {l : TM σ α} {l' : SM σ α} {r : TM σ β} {r' : SM σ β} (hl : Erases l l')
    (hr : Erases r r') (k : α → β → Res IncShapes γ) : Erases (binTr l r k) (binIn l' r' k) :=
  (hl.mapErr _).bind fun _ => (hr.mapErr _).bind fun _ => .lift _

end Erases

section
variable [Zero F] [One F] [Add F] [Sub F] [Mul F] [Div F] [Neg F] [ScalarFns F]

theorem FnImpl.erases (I : CtxImpl F Γ σ) {e : Node F} {τ : BTy} (d : FnImpl Γ e τ) :
    Erases (d.fnTr I).evaluate (d.fnIn I).evaluate ∧
      Erases (d.fnTr I).evaluateSpec (d.fnIn I).evaluateSpec ∧
      Erases (d.fnTr I).evaluateShape (d.fnIn I).evaluateShape := by
  have of : ∀ {τ : BTy} {a : TM σ (BSpec F τ)} {a' : SM σ (BSpec F τ)} {b : TM σ (Shp τ)}
      {b' : SM σ (Shp τ)}, Erases a a' → Erases b b' →
      Erases (FnTr.ofSpec a b).evaluate (FnIn.ofSpec a' b').evaluate ∧
      Erases (FnTr.ofSpec a b).evaluateSpec (FnIn.ofSpec a' b').evaluateSpec ∧
      Erases (FnTr.ofSpec a b).evaluateShape (FnIn.ofSpec a' b').evaluateShape :=
    fun h1 h2 => ⟨h1.map _, h1, h2⟩
  induction d with
  | var i => exact ⟨.get _ _ _, .get _ _ _, .get _ _ _⟩
  | varAdj i t k h =>
    exact of (((Erases.get _ _ _).mapErr _).bind fun _ => ((Erases.get _ _ _).mapErr _).bind
      fun _ => .lift _) (((Erases.get _ _ _).mapErr _).bind fun _ => ((Erases.get _ _ _).mapErr _).bind
      fun _ => .lift _)
  | const τ b => exact of (.lift _) (.lift _)
  | constSpec τ s => exact of (.lift _) (.lift _)
  | constAdj d t k ih =>
    have h := (ih.2.2.mapErr .left).bind fun sn => ((Erases.get (.read t) t
      (fun s => (I.read s t).map (Buf.shape _))).mapErr .right).bind fun st =>
        Erases.lift (.ok (k.shape sn st))
    exact of (h.map _) h
  | cached i d ih =>
    have h : Erases ((FnImpl.cached i d).fnTr I).evaluate ((FnImpl.cached i d).fnIn I).evaluate := by
      intro s
      simp only [FnImpl.fnTr, FnImpl.fnIn]
      cases I.read s i with
      | some v => rfl
      | none =>
        dsimp only
        rw [← ih.1 s]
        rcases (d.fnTr I).evaluate s with ⟨r, s', as⟩
        cases r <;> rfl
    exact ⟨h, h.map _, h.map _⟩
  | add dl dr z ihl ihr | sub dl dr z ihl ihr | mul dl dr z ihl ihr | contract dl dr z ihl ihr =>
    exact of (.bin ihl.2.1 ihr.2.1 _) (.bin ihl.2.2 ihr.2.2 _)
  | div dl dr z ihl ihr =>
    have h := Erases.bin ihl.1 ihr.1 fun x y => Res.ofExcept (Buf.zipMapId z x y (· / ·))
    exact ⟨h, h.map _, .bin ihl.2.2 ihr.2.2 _⟩
  | power dl dr ihl ihr => exact of (.bin ihl.2.1 ihr.2.1 _) (.lift _)
  | sum d ih => exact ⟨ih.1.map _, ih.2.1.bind fun _ => .lift _, .lift _⟩
  | un op d ih => exact ⟨ih.1.map _, ih.2.1.map _, ih.2.2⟩

end

/-! ### What is accessed -/

/-- From the state `s`, `m` only reads; in case of success the identifiers `ids`, otherwise some of
the first of them. -/
def ReadsOnly (s : σ) (m : TM σ α) (ids : List Id) : Prop :=
  (m s).2.1 = s ∧ (∀ a ∈ (m s).2.2, IsRead a) ∧
    ((∃ v, (m s).1 = .ok v) → (m s).2.2.map accId = ids) ∧ (m s).2.2.map accId <+: ids

namespace ReadsOnly
variable {s : σ} {ids jds : List Id}

theorem map {m : TM σ α} (h : ReadsOnly s m ids) (f : α → β) : ReadsOnly s (m.map f) ids := by
  refine ⟨h.1, h.2.1, fun ⟨v, hv⟩ => h.2.2.1 ?_, h.2.2.2⟩
  simp only [TM.map] at hv
  cases hm : (m s).1 with
  | ok a => exact ⟨a, rfl⟩
  | err e => rw [hm] at hv; cases hv
  | panic => rw [hm] at hv; cases hv

theorem mapErr {m : TM σ α} (h : ReadsOnly s m ids) (f : EvalErr → EvalErr) :
    ReadsOnly s (m.mapErr f) ids := by
  refine ⟨h.1, h.2.1, fun ⟨v, hv⟩ => h.2.2.1 ?_, h.2.2.2⟩
  simp only [TM.mapErr] at hv
  cases hm : (m s).1 with
  | ok a => exact ⟨a, rfl⟩
  | err e => rw [hm] at hv; cases hv
  | panic => rw [hm] at hv; cases hv

theorem bind {m : TM σ α} {f : α → TM σ β} (h : ReadsOnly s m ids) (hf : ∀ a, ReadsOnly s (f a) jds) :
    ReadsOnly s (m.bind f) (ids ++ jds) := by
  obtain ⟨h1, h2, h3, h4⟩ := h
  unfold ReadsOnly
  simp only [TM.bind]
  rcases hm : m s with ⟨r, s', as⟩
  rw [hm] at h1 h2 h3 h4
  dsimp only at h1 h2 h3 h4
  subst h1
  cases r with
  | ok a =>
    obtain ⟨g1, g2, g3, g4⟩ := hf a
    have h3 := h3 ⟨a, rfl⟩
    refine ⟨g1, ?_, fun hv => ?_, ?_⟩
    · intro b hb
      rcases List.mem_append.1 hb with hb | hb
      · exact h2 b hb
      · exact g2 b hb
    · rw [List.map_append, h3, g3 hv]
    · rw [List.map_append, h3]
      exact (List.prefix_append_right_inj _).2 g4
  | err e => exact ⟨rfl, h2, fun hv => (by obtain ⟨v, hv⟩ := hv; cases hv),
      h4.trans (List.prefix_append _ _)⟩
  | panic => exact ⟨rfl, h2, fun hv => (by obtain ⟨v, hv⟩ := hv; cases hv),
      h4.trans (List.prefix_append _ _)⟩

theorem lift (r : Res EvalErr α) : ReadsOnly s (TM.lift r) [] :=
  ⟨rfl, by simp [TM.lift], fun _ => rfl, List.prefix_rfl⟩

theorem get {a : Acc} (ha : IsRead a) (r : σ → Option α) :
    ReadsOnly s (TM.get a (accId a) r) [accId a] := by
  unfold ReadsOnly
  simp only [TM.get]
  cases r s <;> exact ⟨rfl, by simpa using ha, fun _ => rfl, List.prefix_rfl⟩

theorem bin {l : TM σ α} {r : TM σ β} (hl : ReadsOnly s l ids) (hr : ReadsOnly s r jds)
    (k : α → β → Res IncShapes γ) : ReadsOnly s (binTr l r k) (ids ++ jds) := by
  have h := (hl.mapErr .left).bind fun x => (hr.mapErr .right).bind fun y =>
    ReadsOnly.lift ((k x y).mapErr .output)
  rwa [List.append_nil] at h

end ReadsOnly

section
variable [Zero F] [One F] [Add F] [Sub F] [Mul F] [Div F] [Neg F] [ScalarFns F]

theorem FnImpl.readsOnly (I : CtxImpl F Γ σ) (s : σ) {e : Node F} {τ : BTy} (d : FnImpl Γ e τ)
    (hw : ∀ i, CacheId e i → I.read s i ≠ none) :
    ReadsOnly s (d.fnTr I).evaluate (valueIds e) ∧
      ReadsOnly s (d.fnTr I).evaluateSpec (valueIds e) ∧
      ReadsOnly s (d.fnTr I).evaluateShape (shapeIds e) := by
  have of : ∀ {τ : BTy} {a : TM σ (BSpec F τ)} {b : TM σ (Shp τ)} {ids jds : List Id},
      ReadsOnly s a ids → ReadsOnly s b jds → ReadsOnly s (FnTr.ofSpec a b).evaluate ids ∧
      ReadsOnly s (FnTr.ofSpec a b).evaluateSpec ids ∧
      ReadsOnly s (FnTr.ofSpec a b).evaluateShape jds :=
    fun h1 h2 => ⟨h1.map _, h1, h2⟩
  induction d with
  | var i =>
    exact ⟨.get (a := .read i) trivial _, .get (a := .readSpec i) trivial _,
      .get (a := .readShape i) trivial _⟩
  | varAdj i t k h =>
    have h : ∀ {β : Type} (f : Shp (Γ i) → Shp (Γ t) → Res EvalErr β), ReadsOnly s
        (((TM.get (.readShape i) i (I.readShape · i)).mapErr .left).bind fun si =>
          ((TM.get (.readShape t) t (I.readShape · t)).mapErr .right).bind fun st =>
            TM.lift (f si st)) [i, t] := fun f =>
      ((ReadsOnly.get (a := .readShape i) trivial (I.readShape · i)).mapErr .left).bind fun si =>
        ((ReadsOnly.get (a := .readShape t) trivial (I.readShape · t)).mapErr .right).bind fun st =>
          .lift (f si st)
    exact of (h _) (h _)
  | const τ b => exact of (.lift _) (.lift _)
  | constSpec τ s => exact of (.lift _) (.lift _)
  | constAdj d t k ih =>
    have h := ((ih fun i hi => hw i (.child (by simp [children]) hi)).2.2.mapErr .left).bind fun sn =>
      ((ReadsOnly.get (a := .read t) trivial (fun s => (I.read s t).map (Buf.shape _))).mapErr
        .right).bind fun st => ReadsOnly.lift (.ok (k.shape sn st))
    rw [List.append_nil] at h
    exact of (h.map _) h
  | @cached n i d ih =>
    have h : ReadsOnly s ((FnImpl.cached i d).fnTr I).evaluate [i] := by
      unfold ReadsOnly
      simp only [FnImpl.fnTr]
      have := hw i ⟨_, .refl _⟩
      cases hr : I.read s i with
      | some v => exact ⟨rfl, by simp [IsRead], fun _ => rfl, List.prefix_rfl⟩
      | none => exact absurd hr this
    exact ⟨h, h.map _, h.map _⟩
  | add dl dr z ihl ihr | sub dl dr z ihl ihr | mul dl dr z ihl ihr | contract dl dr z ihl ihr =>
    have ihl := ihl fun i hi => hw i (.child (by simp [children]) hi)
    have ihr := ihr fun i hi => hw i (.child (by simp [children]) hi)
    exact of (.bin ihl.2.1 ihr.2.1 _) (.bin ihl.2.2 ihr.2.2 _)
  | div dl dr z ihl ihr =>
    have ihl := ihl fun i hi => hw i (.child (by simp [children]) hi)
    have ihr := ihr fun i hi => hw i (.child (by simp [children]) hi)
    have h := ReadsOnly.bin ihl.1 ihr.1 fun x y => Res.ofExcept (Buf.zipMapId z x y (· / ·))
    exact ⟨h, h.map _, .bin ihl.2.2 ihr.2.2 _⟩
  | power dl dr ihl ihr =>
    have ihl := ihl fun i hi => hw i (.child (by simp [children]) hi)
    have ihr := ihr fun i hi => hw i (.child (by simp [children]) hi)
    exact of (.bin ihl.2.1 ihr.2.1 _) (.lift _)
  | sum d ih =>
    have ih := ih fun i hi => hw i (.child (by simp [children]) hi)
    have h := ih.2.1.bind fun s => ReadsOnly.lift (sumSpec s)
    rw [List.append_nil] at h
    exact ⟨ih.1.map _, h, .lift _⟩
  | un op d ih =>
    have ih := ih fun i hi => hw i (.child (by simp [children]) hi)
    exact ⟨ih.1.map _, ih.2.1.map _, ih.2.2⟩

end

/-! ### Any state -/

/-- `m` makes at most `n` accesses, whatever happens. -/
def AtMost (m : TM σ α) (n : Nat) : Prop := ∀ s, (m s).2.2.length ≤ n

namespace AtMost
variable {n k : Nat}

theorem mono {m : TM σ α} (h : AtMost m n) (hk : n ≤ k) : AtMost m k := fun s => (h s).trans hk

theorem map {m : TM σ α} (h : AtMost m n) (f : α → β) : AtMost (m.map f) n := h

theorem mapErr {m : TM σ α} (h : AtMost m n) (f : EvalErr → EvalErr) : AtMost (m.mapErr f) n := h

theorem bind {m : TM σ α} {f : α → TM σ β} (h : AtMost m n) (hf : ∀ a, AtMost (f a) k) :
    AtMost (m.bind f) (n + k) := fun s => by
  have h0 := h s
  simp only [TM.bind]
  rcases hm : m s with ⟨r, s', as⟩
  rw [hm] at h0
  dsimp only at h0
  cases r with
  | ok a =>
    have := hf a s'
    simp only [List.length_append]
    omega
  | err e => dsimp only; omega
  | panic => dsimp only; omega

theorem lift (r : Res EvalErr α) : AtMost (TM.lift r : TM σ α) 0 := fun _ => Nat.le_refl _

theorem get (a : Acc) (i : Id) (r : σ → Option α) : AtMost (TM.get a i r) 1 := fun s => by
  simp only [TM.get]
  cases r s <;> simp

theorem bin {l : TM σ α} {r : TM σ β} (hl : AtMost l n) (hr : AtMost r k)
    (f : α → β → Res IncShapes γ) : AtMost (binTr l r f) (n + k) :=
  (hl.mapErr .left).bind fun _ => (hr.mapErr .right).bind fun _ => AtMost.lift _

end AtMost

section
variable [Zero F] [One F] [Add F] [Sub F] [Mul F] [Div F] [Neg F] [ScalarFns F]

theorem FnImpl.atMost (I : CtxImpl F Γ σ) {e : Node F} {τ : BTy} (d : FnImpl Γ e τ) :
    AtMost (d.fnTr I).evaluate (2 * size e) ∧ AtMost (d.fnTr I).evaluateSpec (2 * size e) ∧
      AtMost (d.fnTr I).evaluateShape (2 * size e) := by
  have of : ∀ {τ : BTy} {a : TM σ (BSpec F τ)} {b : TM σ (Shp τ)} {n : Nat},
      AtMost a n → AtMost b n → AtMost (FnTr.ofSpec a b).evaluate n ∧
      AtMost (FnTr.ofSpec a b).evaluateSpec n ∧ AtMost (FnTr.ofSpec a b).evaluateShape n :=
    fun h1 h2 => ⟨h1.map _, h1, h2⟩
  induction d with
  | var i =>
    exact ⟨(AtMost.get _ _ _).mono (by simp [size]), (AtMost.get _ _ _).mono (by simp [size]),
      (AtMost.get _ _ _).mono (by simp [size])⟩
  | varAdj i t k h =>
    exact of (((AtMost.get _ _ _).mapErr _).bind fun _ => ((AtMost.get _ _ _).mapErr _).bind
      fun _ => .lift _) (((AtMost.get _ _ _).mapErr _).bind fun _ => ((AtMost.get _ _ _).mapErr _).bind
      fun _ => .lift _)
  | const τ b => exact of ((AtMost.lift _).mono (by simp)) ((AtMost.lift _).mono (by simp))
  | constSpec τ s => exact of ((AtMost.lift _).mono (by simp)) ((AtMost.lift _).mono (by simp))
  | @constAdj n a c d t k ih =>
    have h := ((ih.2.2.mapErr .left).bind fun sn => ((AtMost.get (.read t) t
      (fun s => (I.read s t).map (Buf.shape _))).mapErr .right).bind fun st =>
        AtMost.lift (.ok (k.shape sn st))).mono (k := 2 * size (Node.constAdj n t)) (by
          simp only [size]; omega)
    exact of (h.map _) h
  | @cached n i d ih =>
    have h : AtMost ((FnImpl.cached i d).fnTr I).evaluate (2 * size (.cached n i)) := by
      intro s
      have := ih.1 s
      simp only [FnImpl.fnTr, size]
      cases I.read s i with
      | some v => simp; omega
      | none =>
        dsimp only
        rcases hm : (d.fnTr I).evaluate s with ⟨r, s', as⟩
        rw [hm] at this
        dsimp only at this
        cases r <;> simp <;> omega
    exact ⟨h, h.map _, h.map _⟩
  | add dl dr z ihl ihr | sub dl dr z ihl ihr | mul dl dr z ihl ihr | contract dl dr z ihl ihr =>
    exact of ((AtMost.bin ihl.2.1 ihr.2.1 _).mono (by simp only [size]; omega))
      ((AtMost.bin ihl.2.2 ihr.2.2 _).mono (by simp only [size]; omega))
  | div dl dr z ihl ihr =>
    have h := AtMost.bin ihl.1 ihr.1 fun x y => Res.ofExcept (Buf.zipMapId z x y (· / ·))
    exact ⟨h.mono (by simp only [size]; omega), (h.map _).mono (by simp only [size]; omega),
      (AtMost.bin ihl.2.2 ihr.2.2 _).mono (by simp only [size]; omega)⟩
  | power dl dr ihl ihr =>
    exact of ((AtMost.bin ihl.2.1 ihr.2.1 _).mono (by simp only [size]; omega))
      ((AtMost.lift _).mono (by simp))
  | sum d ih =>
    exact ⟨(ih.1.map _).mono (by simp only [size]; omega),
      (ih.2.1.bind fun _ => AtMost.lift _).mono (by simp only [size]; omega),
      (AtMost.lift _).mono (by simp)⟩
  | un op d ih =>
    exact ⟨(ih.1.map _).mono (by simp only [size]; omega),
      (ih.2.1.map _).mono (by simp only [size]; omega), ih.2.2.mono (by simp only [size]; omega)⟩

end

/-! ### Sizes of adjoints -/

theorem size_pos (e : Node F) : 1 ≤ size e := by cases e <;> simp [size]

theorem height_pos (e : Node F) : 1 ≤ height e := by cases e <;> simp [height]

theorem height_le_size (e : Node F) : height e ≤ size e := by
  induction e <;> simp only [height, size] <;> omega

/-- A binary rule of differentiation. -/
theorem size_step {a b a' b' H s' : Nat} (ha : a' ≤ 3 * a * H) (hb : b' ≤ 3 * b * H)
    (h1 : 1 ≤ a) (h2 : 1 ≤ b) (h3 : 1 ≤ H) (h : s' ≤ a' + b' + 2 * a + 2 * b + 7) :
    s' ≤ 3 * (a + b + 1) * (H + 1) := by
  nlinarith

/-- A rule of differentiation with one operand. -/
theorem size_step₁ {a a' H s' : Nat} (ha : a' ≤ 3 * a * H) (h3 : 1 ≤ H)
    (h : s' ≤ a' + 2 * a + 4) : s' ≤ 3 * (a + 1) * (H + 1) := by
  nlinarith

theorem adjoint_size {t : Id} {e e' : Node F} (h : e.adjoint t = some e') :
    size e' ≤ 3 * size e * height e ∧ height e' ≤ 3 * height e := by
  induction e generalizing e' with
  | var i => cases h; simp [size, height]
  | varAdj i j => cases h; simp [size, height]
  | const τ b => cases h; simp [size, height]
  | constSpec _ _ => cases h
  | constAdj _ _ => cases h
  | cached n i ih =>
    simp only [Node.adjoint] at h
    split at h
    · obtain ⟨h1, h2⟩ := ih h
      have := height_pos n
      exact ⟨size_step₁ h1 this (by omega), by simp only [height]; omega⟩
    · cases h
  | add l r ihl ihr | sub l r ihl ihr | mul l r ihl ihr | div l r ihl ihr | power l r ihl ihr
  | contract _ l r ihl ihr =>
    simp only [Node.adjoint, Option.bind_eq_some_iff, Option.map_eq_some_iff] at h
    obtain ⟨l', hl, r', hr, rfl⟩ := h
    obtain ⟨hl1, hl2⟩ := ihl hl
    obtain ⟨hr1, hr2⟩ := ihr hr
    have := height_pos l
    have := size_pos l
    have := size_pos r
    refine ⟨size_step (H := max (height l) (height r)) (hl1.trans (Nat.mul_le_mul_left _ (by omega)))
      (hr1.trans (Nat.mul_le_mul_left _ (by omega))) (by omega) (by omega) (by omega)
      (by simp only [size]; omega), ?_⟩
    simp only [height]
    omega
  | sum n ih =>
    obtain ⟨h1, h2⟩ := ih h
    have := height_pos n
    exact ⟨size_step₁ h1 this (by omega), by simp only [height]; omega⟩
  | un op n ih =>
    have := height_pos n
    cases op <;> simp only [Node.adjoint, Option.map_eq_some_iff, reduceCtorEq] at h
    case subOne | addOne =>
      obtain ⟨h1, h2⟩ := ih h
      exact ⟨size_step₁ h1 this (by omega), by simp only [height]; omega⟩
    all_goals
      obtain ⟨n', hn, rfl⟩ := h
      obtain ⟨h1, h2⟩ := ih hn
      exact ⟨size_step₁ h1 this (by simp only [size]; omega), by simp only [height]; omega⟩

theorem ids_le (e : Node F) :
    (valueIds e).length ≤ 2 * size e ∧ (shapeIds e).length ≤ 2 * size e := by
  induction e <;> simp only [valueIds, shapeIds, size, List.length_append, List.length_cons,
    List.length_nil] <;> omega

/-! ### A family without a linear bound -/

/-- The adjoint of `powers x k`. -/
def powersAdj (x : Id) : Nat → Node F
  | 0 => .varAdj x x
  | k + 1 => .add (.mul (powersAdj x k) (.var x)) (.mul (.varAdj x x) (powers x k))

theorem adjoint_powers (x : Id) (k : Nat) :
    (powers x k : Node F).adjoint x = some (powersAdj x k) := by
  induction k with
  | zero => rfl
  | succ k ih => simp only [powers, Node.adjoint, ih, powersAdj]; rfl

theorem size_powers (x : Id) (k : Nat) : size (powers x k : Node F) = 2 * k + 1 := by
  induction k with
  | zero => rfl
  | succ k ih => simp only [powers, size, ih]; omega

theorem ids_powers (x : Id) (k : Nat) : (valueIds (powers x k : Node F)).length = k + 1 := by
  induction k with
  | zero => rfl
  | succ k ih => simp only [powers, valueIds, List.length_append, ih]; rfl

theorem size_powersAdj (x : Id) (k : Nat) : size (powersAdj x k : Node F) = k * k + 5 * k + 1 := by
  induction k with
  | zero => rfl
  | succ k ih => simp only [powersAdj, size, ih, size_powers]; ring

theorem ids_powersAdj (x : Id) (k : Nat) :
    2 * (valueIds (powersAdj x k : Node F)).length = k * k + 7 * k + 4 := by
  induction k with
  | zero => rfl
  | succ k ih =>
    simp only [powersAdj, valueIds, List.length_append, ids_powers, List.length_cons,
      List.length_nil, Nat.mul_add, ih]
    ring

/-- The impl of `powers x k` where every identifier is a scalar. -/
def powersImpl (x : Id) : (k : Nat) → FnImpl (fun _ => .scalar) (powers x k : Node F) .scalar
  | 0 => .var x
  | k + 1 => .mul (powersImpl x k) (.var x) .ss

/-- The impl of its adjoint. -/
def powersAdjImpl (x : Id) : (k : Nat) → FnImpl (fun _ => .scalar) (powersAdj x k : Node F) .scalar
  | 0 => .varAdj x x .ss (by simp [BTy.rank])
  | k + 1 => .add (.mul (powersAdjImpl x k) (.var x) .ss)
      (.mul (.varAdj x x .ss (by simp [BTy.rank])) (powersImpl x k) .ss) .ss

section
variable [Zero F] [One F] [Add F] [Sub F] [Mul F] [Div F] [Neg F] [ScalarFns F]

/-- `m` succeeds in the state `s` and leaves it as it is. -/
def Succeeds (s : σ) (m : TM σ α) : Prop := ∃ v as, m s = (.ok v, s, as)

theorem Succeeds.bin {s : σ} {l : TM σ α} {r : TM σ β} {k : α → β → Res IncShapes γ}
    (hl : Succeeds s l) (hr : Succeeds s r) (hk : ∀ x y, ∃ z, k x y = .ok z) :
    Succeeds s (binTr l r k) := by
  obtain ⟨x, as, hl⟩ := hl
  obtain ⟨y, bs, hr⟩ := hr
  obtain ⟨z, hk⟩ := hk x y
  exact ⟨z, as ++ (bs ++ []), by simp [binTr, TM.bind, TM.mapErr, TM.lift, hl, hr, hk, Res.mapErr]⟩

omit [One F] [Add F] [Sub F] [Div F] [Neg F] in
theorem mulSpec_ss (x y : BSpec F .scalar) : ∃ z, mulSpec .ss x y = .ok z := by
  cases x <;> cases y <;> simp only [mulSpec] <;> try split
  all_goals exact ⟨_, rfl⟩

omit [One F] [Sub F] [Mul F] [Div F] [Neg F] in
theorem addSpec_ss (x y : BSpec F .scalar) : ∃ z, addSpec .ss x y = .ok z := by
  cases x <;> cases y <;> simp only [addSpec] <;> try split
  all_goals exact ⟨_, rfl⟩

theorem powers_succeeds (I : CtxImpl F (fun _ => .scalar) σ) (s : σ) (x : Id)
    (h1 : I.readSpec s x ≠ none) (h2 : I.readShape s x ≠ none) (k : Nat) :
    Succeeds s ((powersImpl x k).fnTr I).evaluateSpec ∧
      Succeeds s ((powersAdjImpl x k).fnTr I).evaluateSpec := by
  obtain ⟨v, h1⟩ := Option.ne_none_iff_exists'.1 h1
  obtain ⟨v', h2⟩ := Option.ne_none_iff_exists'.1 h2
  have hv : Succeeds s ((FnImpl.var (F := F) (Γ := fun _ => .scalar) x).fnTr I).evaluateSpec :=
    ⟨v, [.readSpec x], by simp [FnImpl.fnTr, TM.get, h1]⟩
  have ha : Succeeds s ((powersAdjImpl x 0).fnTr I).evaluateSpec := by
    refine ⟨.raw 1, [.readShape x, .readShape x], ?_⟩
    simp [powersAdjImpl, FnImpl.fnTr, FnTr.ofSpec, TM.get, TM.bind, TM.mapErr, TM.lift, h2,
      Res.mapErr, varAdjSpec]
    rw [if_neg (by simp [BTy.rank])]
    rfl
  have hp : ∀ k, Succeeds s ((powersImpl x k).fnTr I).evaluateSpec := by
    intro k
    induction k with
    | zero => exact hv
    | succ k ih => exact .bin ih hv mulSpec_ss
  refine ⟨hp k, ?_⟩
  induction k with
  | zero => exact ha
  | succ k ih => exact .bin (.bin ih hv mulSpec_ss) (.bin ha (hp k) mulSpec_ss) addSpec_ss

theorem Succeeds.map {s : σ} {m : TM σ α} (h : Succeeds s m) (f : α → β) : Succeeds s (m.map f) := by
  obtain ⟨x, as, h⟩ := h
  exact ⟨f x, as, by simp [TM.map, h, Res.map]⟩

theorem powers_evaluates (I : CtxImpl F (fun _ => .scalar) σ) (s : σ) (x : Id)
    (h0 : I.read s x ≠ none) (h1 : I.readSpec s x ≠ none) (h2 : I.readShape s x ≠ none) (k : Nat) :
    Succeeds s ((powersImpl x k).fnTr I).evaluate ∧
      Succeeds s ((powersAdjImpl x k).fnTr I).evaluate := by
  obtain ⟨v, h0⟩ := Option.ne_none_iff_exists'.1 h0
  have h := powers_succeeds I s x h1 h2 k
  cases k with
  | zero => exact ⟨⟨v, [.read x], by simp [powersImpl, FnImpl.fnTr, TM.get, h0]⟩, h.2.map _⟩
  | succ k => exact ⟨h.1.map _, h.2.map _⟩

end

theorem powers_cacheFree (x : Id) (k : Nat) :
    CacheFree (powers x k : Node F) ∧ CacheFree (powersAdj x k : Node F) := by
  have hp : ∀ k, CacheFree (powers x k : Node F) := by
    intro k
    induction k with
    | zero => intro n i h; simp [powers] at h
    | succ k ih =>
      intro n i h
      simp only [powers, SubExpr.mul, SubExpr.var, reduceCtorEq, false_or, or_false] at h
      exact ih n i h
  refine ⟨hp k, ?_⟩
  induction k with
  | zero => intro n i h; simp [powersAdj] at h
  | succ k ih =>
    intro n i h
    simp only [powersAdj, SubExpr.add, SubExpr.mul, SubExpr.var, SubExpr.varAdj, reduceCtorEq,
      false_or, or_false] at h
    exact h.elim (ih n i) (hp k n i)

end Aegir
