import Verif.Spec.Contexts
/-!
# Evaluation in any lawful context type
-/

namespace Aegir

open Spec

variable {F : Type} {Γ : Id → BTy} {σ : Type}

/-- `m` in the context type does what `m'` does in the map of its contents. -/
def Refines {α : Type} (I : CtxImpl F Γ σ) (m : SM σ α) (m' : EvalM F Γ α) : Prop :=
  ∀ s, (m s).1 = (m' (I.read s)).1 ∧ I.read (m s).2 = (m' (I.read s)).2

namespace Refines
variable {α β γ : Type} {I : CtxImpl F Γ σ}

theorem map {m : SM σ α} {m' : EvalM F Γ α} (h : Refines I m m') (f : α → β) :
    Refines I (m.map f) (m'.map f) := fun s =>
  ⟨congrArg (Res.map f) (h s).1, (h s).2⟩

theorem mapErr {m : SM σ α} {m' : EvalM F Γ α} (h : Refines I m m') (f : EvalErr → EvalErr) :
    Refines I (m.mapErr f) (m'.mapErr f) := fun s =>
  ⟨congrArg (Res.mapErr f) (h s).1, (h s).2⟩

theorem bind {m : SM σ α} {m' : EvalM F Γ α} {f : α → SM σ β} {f' : α → EvalM F Γ β}
    (h : Refines I m m') (hf : ∀ a, Refines I (f a) (f' a)) : Refines I (m.bind f) (m'.bind f') := by
  intro s
  obtain ⟨h1, h2⟩ := h s
  simp only [SM.bind, EvalM.bind]
  match hm : m s, hm' : m' (I.read s) with
  | (r, s'), (r', c') =>
    rw [hm, hm'] at h1 h2
    subst h1 h2
    match r with
    | .ok a => exact hf a s'
    | .err e => exact ⟨rfl, rfl⟩
    | .panic => exact ⟨rfl, rfl⟩

theorem lift (r : Res EvalErr α) : Refines I (SM.lift r) (EvalM.lift r) := fun _ => ⟨rfl, rfl⟩

theorem get (i : Id) (r : σ → Option α) (f : Buf F (Γ i) → α)
    (h : ∀ s, r s = (I.read s i).map f) : Refines I (SM.get i r) ((EvalM.read i).map f) := by
  intro s
  simp only [SM.get, EvalM.map, EvalM.read, h]
  cases I.read s i <;> exact ⟨rfl, rfl⟩

theorem read (i : Id) : Refines I (SM.get i (I.read · i)) (EvalM.read i) := by
  intro s
  simp only [SM.get, EvalM.read]
  cases I.read s i <;> exact ⟨rfl, rfl⟩

theorem bin {l : SM σ α} {l' : EvalM F Γ α} {r : SM σ β} {r' : EvalM F Γ β}
    (hl : Refines I l l') (hr : Refines I r r') (k : α → β → Res IncShapes γ) :
    Refines I (binIn l r k) (binM l' r' k) :=
  (hl.mapErr _).bind fun _ => (hr.mapErr _).bind fun _ => .lift _

end Refines

theorem Spec.LawfulCtx.write_eq {I : CtxImpl F Γ σ} {W : Id → Prop} (h : LawfulCtx I W) (s : σ)
    (i : Id) (hi : W i) (v : Buf F (Γ i)) : I.read (I.write s i v) = Ctx.write (I.read s) i v := by
  funext j
  by_cases hj : j = i
  · subst hj
    rw [h.same s j v hi]; simp [Ctx.write]
  · rw [h.other s i v j hi hj]; simp [Ctx.write, hj]

section
variable [Zero F] [One F] [Add F] [Sub F] [Mul F] [Div F] [Neg F] [ScalarFns F]

theorem FnImpl.refines {I : CtxImpl F Γ σ} {W : Id → Prop} (hI : LawfulCtx I W) {e : Node F}
    {τ : BTy} (d : FnImpl Γ e τ) (hW : ∀ i, CacheId e i → W i) :
    Refines I (d.fnIn I).evaluate d.fn.evaluate ∧
    Refines I (d.fnIn I).evaluateSpec d.fn.evaluateSpec ∧
    Refines I (d.fnIn I).evaluateShape d.fn.evaluateShape := by
  have spec : ∀ {τ : BTy} {m : SM σ (BSpec F τ)} {m' : EvalM F Γ (BSpec F τ)} {s : SM σ (Shp τ)}
      {s' : EvalM F Γ (Shp τ)}, Refines I m m' → Refines I s s' →
      Refines I (FnIn.ofSpec m s).evaluate (Fn.ofSpec m' s').evaluate ∧
      Refines I (FnIn.ofSpec m s).evaluateSpec (Fn.ofSpec m' s').evaluateSpec ∧
      Refines I (FnIn.ofSpec m s).evaluateShape (Fn.ofSpec m' s').evaluateShape :=
    fun h1 h2 => ⟨h1.map _, h1, h2⟩
  have sub : ∀ {e e' : Node F}, (∀ i, CacheId e i → W i) → e' ∈ children e →
      ∀ i, CacheId e' i → W i := fun h hc i ⟨n, hn⟩ => h i ⟨n, .step hc hn⟩
  induction d with
  | var i =>
    exact ⟨.read i, .get i _ _ fun s => hI.spec s i, .get i _ _ fun s => hI.shape s i⟩
  | varAdj i t k h =>
    have two : ∀ {α : Type} (f : Shp (Γ i) → Shp (Γ t) → Res EvalErr α),
        Refines I (((SM.get i (I.readShape · i)).mapErr .left).bind fun si =>
          ((SM.get t (I.readShape · t)).mapErr .right).bind fun st => SM.lift (f si st))
        ((((EvalM.read i).map (Buf.shape _)).mapErr EvalErr.left).bind fun si =>
          (((EvalM.read t).map (Buf.shape _)).mapErr EvalErr.right).bind fun st =>
            (EvalM.lift (f si st) : EvalM F Γ α)) := fun f =>
      .bind ((Refines.get i _ _ fun s => hI.shape s i).mapErr _) fun si =>
        .bind ((Refines.get t _ _ fun s => hI.shape s t).mapErr _) fun st => .lift _
    exact spec (two _) (two _)
  | const τ b => exact spec (.lift _) (.lift _)
  | constSpec τ s => exact spec (.lift _) (.lift _)
  | constAdj d t k ih =>
    have ih := ih (sub hW (by simp [children]))
    have hs : Refines I ((FnImpl.constAdj d t k).fnIn I).evaluateShape
        (FnImpl.constAdj d t k).fn.evaluateShape :=
      .bind (ih.2.2.mapErr _) fun si =>
        .bind ((Refines.get t _ _ fun s => rfl).mapErr _) fun st => .lift _
    exact spec (hs.map _) hs
  | cached i d ih =>
    rename_i n
    have ih := (ih (sub hW (by simp [children]))).1
    have hi : W i := hW i ⟨n, .refl _⟩
    have hc : Refines I ((FnImpl.cached i d).fnIn I).evaluate (FnImpl.cached i d).fn.evaluate := by
      intro s
      simp only [FnImpl.fnIn, FnImpl.fn]
      cases hr : I.read s i with
      | some v => exact ⟨rfl, rfl⟩
      | none =>
        obtain ⟨h1, h2⟩ := ih s
        match hm : (d.fnIn I).evaluate s, hm' : d.fn.evaluate (I.read s) with
        | (r, s'), (r', c') =>
          rw [hm, hm'] at h1 h2
          subst h1 h2
          match r with
          | .ok v => exact ⟨rfl, hI.write_eq s' i hi v⟩
          | .err e => exact ⟨rfl, rfl⟩
          | .panic => exact ⟨rfl, rfl⟩
    exact ⟨hc, hc.map _, hc.map _⟩
  | add dl dr z ihl ihr =>
    have ihl := ihl (sub hW (by simp [children]))
    have ihr := ihr (sub hW (by simp [children]))
    exact spec (.bin ihl.2.1 ihr.2.1 _) (.bin ihl.2.2 ihr.2.2 _)
  | sub dl dr z ihl ihr =>
    have ihl := ihl (sub hW (by simp [children]))
    have ihr := ihr (sub hW (by simp [children]))
    exact spec (.bin ihl.2.1 ihr.2.1 _) (.bin ihl.2.2 ihr.2.2 _)
  | mul dl dr z ihl ihr =>
    have ihl := ihl (sub hW (by simp [children]))
    have ihr := ihr (sub hW (by simp [children]))
    exact spec (.bin ihl.2.1 ihr.2.1 _) (.bin ihl.2.2 ihr.2.2 _)
  | div dl dr z ihl ihr =>
    have ihl := ihl (sub hW (by simp [children]))
    have ihr := ihr (sub hW (by simp [children]))
    have he := Refines.bin ihl.1 ihr.1 fun x y => Res.ofExcept (Buf.zipMapId z x y (· / ·))
    exact ⟨he, he.map _, .bin ihl.2.2 ihr.2.2 _⟩
  | power dl dr ihl ihr =>
    have ihl := ihl (sub hW (by simp [children]))
    have ihr := ihr (sub hW (by simp [children]))
    exact spec (.bin ihl.2.1 ihr.2.1 _) (.lift _)
  | contract dl dr z ihl ihr =>
    have ihl := ihl (sub hW (by simp [children]))
    have ihr := ihr (sub hW (by simp [children]))
    exact spec (.bin ihl.2.1 ihr.2.1 _) (.bin ihl.2.2 ihr.2.2 _)
  | sum d ih =>
    have ih := ih (sub hW (by simp [children]))
    exact ⟨ih.1.map _, ih.2.1.bind fun s => .lift _, .lift _⟩
  | un op d ih =>
    have ih := ih (sub hW (by simp [children]))
    exact ⟨ih.1.map _, ih.2.1.map _, ih.2.2⟩

/-- `m` keeps `P` true of the context. -/
def Preserves {α : Type} (P : σ → Prop) (m : SM σ α) : Prop := ∀ s, P s → P (m s).2

namespace Preserves
variable {α β γ : Type} {P : σ → Prop}

theorem map {m : SM σ α} (h : Preserves P m) (f : α → β) : Preserves P (m.map f) := h

theorem mapErr {m : SM σ α} (h : Preserves P m) (f : EvalErr → EvalErr) : Preserves P (m.mapErr f) := h

theorem bind {m : SM σ α} {f : α → SM σ β} (h : Preserves P m) (hf : ∀ a, Preserves P (f a)) :
    Preserves P (m.bind f) := by
  intro s hs
  have h1 := h s hs
  simp only [SM.bind]
  match hm : m s with
  | (.ok a, s') => rw [hm] at h1; exact hf a s' h1
  | (.err e, s') => rw [hm] at h1; exact h1
  | (.panic, s') => rw [hm] at h1; exact h1

theorem lift (r : Res EvalErr α) : Preserves P (SM.lift r) := fun _ h => h

theorem get (i : Id) (r : σ → Option α) : Preserves P (SM.get i r) := by
  intro s hs
  simp only [SM.get]
  cases r s <;> exact hs

theorem bin {l : SM σ α} {r : SM σ β} (hl : Preserves P l) (hr : Preserves P r)
    (k : α → β → Res IncShapes γ) : Preserves P (binIn l r k) :=
  (hl.mapErr _).bind fun _ => (hr.mapErr _).bind fun _ => .lift _

end Preserves

theorem FnImpl.preserves (I : CtxImpl F Γ σ) {P : σ → Prop} {e : Node F} {τ : BTy} (d : FnImpl Γ e τ)
    (hP : ∀ s i v, CacheId e i → P s → P (I.write s i v)) :
    Preserves P (d.fnIn I).evaluate ∧ Preserves P (d.fnIn I).evaluateSpec ∧
    Preserves P (d.fnIn I).evaluateShape := by
  have spec : ∀ {τ : BTy} {m : SM σ (BSpec F τ)} {s : SM σ (Shp τ)}, Preserves P m → Preserves P s →
      Preserves P (FnIn.ofSpec m s).evaluate ∧ Preserves P (FnIn.ofSpec m s).evaluateSpec ∧
      Preserves P (FnIn.ofSpec m s).evaluateShape := fun h1 h2 => ⟨h1.map _, h1, h2⟩
  have sub : ∀ {e e' : Node F}, (∀ s i v, CacheId e i → P s → P (I.write s i v)) →
      e' ∈ children e → ∀ s i v, CacheId e' i → P s → P (I.write s i v) :=
    fun h hc s i v ⟨n, hn⟩ => h s i v ⟨n, .step hc hn⟩
  induction d with
  | var i => exact ⟨.get _ _, .get _ _, .get _ _⟩
  | varAdj i t k h =>
    have two : ∀ {α : Type} (f : Shp (Γ i) → Shp (Γ t) → Res EvalErr α),
        Preserves P (((SM.get i (I.readShape · i)).mapErr .left).bind fun si =>
          ((SM.get t (I.readShape · t)).mapErr .right).bind fun st => SM.lift (f si st)) := fun f =>
      .bind ((Preserves.get _ _).mapErr _) fun si => .bind ((Preserves.get _ _).mapErr _) fun st => .lift _
    exact spec (two _) (two _)
  | const τ b => exact spec (.lift _) (.lift _)
  | constSpec τ s => exact spec (.lift _) (.lift _)
  | constAdj d t k ih =>
    have ih := ih (sub hP (by simp [children]))
    have hs : Preserves P ((FnImpl.constAdj d t k).fnIn I).evaluateShape :=
      .bind (ih.2.2.mapErr _) fun si => .bind ((Preserves.get _ _).mapErr _) fun st => .lift _
    exact spec (hs.map _) hs
  | cached i d ih =>
    rename_i n
    have ih := (ih (sub hP (by simp [children]))).1
    have hc : Preserves P ((FnImpl.cached i d).fnIn I).evaluate := by
      intro s hs
      simp only [FnImpl.fnIn]
      cases hr : I.read s i with
      | some v => exact hs
      | none =>
        have h1 := ih s hs
        match hm : (d.fnIn I).evaluate s with
        | (.ok v, s') => rw [hm] at h1; exact hP s' i v ⟨n, .refl _⟩ h1
        | (.err e, s') => rw [hm] at h1; exact h1
        | (.panic, s') => rw [hm] at h1; exact h1
    exact ⟨hc, hc.map _, hc.map _⟩
  | add dl dr z ihl ihr =>
    have ihl := ihl (sub hP (by simp [children]))
    have ihr := ihr (sub hP (by simp [children]))
    exact spec (.bin ihl.2.1 ihr.2.1 _) (.bin ihl.2.2 ihr.2.2 _)
  | sub dl dr z ihl ihr =>
    have ihl := ihl (sub hP (by simp [children]))
    have ihr := ihr (sub hP (by simp [children]))
    exact spec (.bin ihl.2.1 ihr.2.1 _) (.bin ihl.2.2 ihr.2.2 _)
  | mul dl dr z ihl ihr =>
    have ihl := ihl (sub hP (by simp [children]))
    have ihr := ihr (sub hP (by simp [children]))
    exact spec (.bin ihl.2.1 ihr.2.1 _) (.bin ihl.2.2 ihr.2.2 _)
  | div dl dr z ihl ihr =>
    have ihl := ihl (sub hP (by simp [children]))
    have ihr := ihr (sub hP (by simp [children]))
    have he := Preserves.bin ihl.1 ihr.1 fun x y => Res.ofExcept (Buf.zipMapId z x y (· / ·))
    exact ⟨he, he.map _, .bin ihl.2.2 ihr.2.2 _⟩
  | power dl dr ihl ihr =>
    have ihl := ihl (sub hP (by simp [children]))
    have ihr := ihr (sub hP (by simp [children]))
    exact spec (.bin ihl.2.1 ihr.2.1 _) (.lift _)
  | contract dl dr z ihl ihr =>
    have ihl := ihl (sub hP (by simp [children]))
    have ihr := ihr (sub hP (by simp [children]))
    exact spec (.bin ihl.2.1 ihr.2.1 _) (.bin ihl.2.2 ihr.2.2 _)
  | sum d ih =>
    have ih := ih (sub hP (by simp [children]))
    exact ⟨ih.1.map _, ih.2.1.bind fun s => .lift _, .lift _⟩
  | un op d ih =>
    have ih := ih (sub hP (by simp [children]))
    exact ⟨ih.1.map _, ih.2.1.map _, ih.2.2⟩

end

end Aegir
