import Verif.Lemmas.Frame
/-!
# Re-evaluation
-/

namespace Aegir

open Spec

variable {F : Type} {Γ : Id → BTy} {α β γ : Type}

/-- `c'` keeps all entries defined in `c`. -/
def Extends (c c' : Ctx F Γ) : Prop := ∀ j, c j ≠ none → c' j = c j

theorem Extends.refl (c : Ctx F Γ) : Extends c c := fun _ _ => rfl

theorem Extends.trans {c c' c'' : Ctx F Γ} (h : Extends c c') (h' : Extends c' c'') :
    Extends c c'' := fun j hj => by
  have h1 := h j hj
  rw [← h1] at hj
  exact (h' j hj).trans h1

theorem Frame.extends {P : Id → Prop} {m : EvalM F Γ α} (h : Frame P m) {c c' : Ctx F Γ}
    {r : Res EvalErr α} (hm : m c = (r, c')) : Extends c c' := fun j hj => by
  have := h c j
  rw [hm] at this
  exact this.resolve_right fun h => hj h.1

/-- A success of `m` is repeated, without any effect, in every context that extends the one it left
behind. -/
def Stable (m : EvalM F Γ α) : Prop :=
  ∀ c v c', m c = (.ok v, c') → ∀ c'', Extends c' c'' → m c'' = (.ok v, c'')

namespace Stable

theorem map {m : EvalM F Γ α} (h : Stable m) (f : α → β) : Stable (m.map f) := by
  intro c v c' hm c'' hc
  obtain ⟨a, ha, rfl⟩ := (EvalM.map_ok_iff _ _ _ _ _).1 hm
  exact (EvalM.map_ok_iff _ _ _ _ _).2 ⟨a, h _ _ _ ha _ hc, rfl⟩

theorem mapErr {m : EvalM F Γ α} (h : Stable m) (f : EvalErr → EvalErr) : Stable (m.mapErr f) := by
  intro c v c' hm c'' hc
  exact (EvalM.mapErr_ok_iff _ _ _ _ _).2 (h _ _ _ ((EvalM.mapErr_ok_iff _ _ _ _ _).1 hm) _ hc)

theorem lift (r : Res EvalErr α) : Stable (EvalM.lift r : EvalM F Γ α) := by
  intro c v c' hm c'' hc
  exact (EvalM.lift_ok_iff _ _ _ _).2 ⟨((EvalM.lift_ok_iff _ _ _ _).1 hm).1, rfl⟩

theorem read (i : Id) : Stable (EvalM.read i : EvalM F Γ _) := by
  intro c v c' hm c'' hc
  obtain ⟨h, rfl⟩ := (EvalM.read_ok_iff _ _ _ _).1 hm
  exact (EvalM.read_ok_iff _ _ _ _).2 ⟨(hc i (by rw [h]; simp)).trans h, rfl⟩

theorem bind {m : EvalM F Γ α} {f : α → EvalM F Γ β} {P : Id → Prop} (h : Stable m)
    (hf : ∀ a, Stable (f a)) (hP : ∀ a, Frame P (f a)) : Stable (m.bind f) := by
  intro c v c' hm c'' hc
  obtain ⟨a, c1, h1, h2⟩ := (EvalM.bind_ok_iff _ _ _ _ _).1 hm
  exact (EvalM.bind_ok_iff _ _ _ _ _).2
    ⟨a, c'', h _ _ _ h1 _ (((hP a).extends h2).trans hc), hf a _ _ _ h2 _ hc⟩

theorem binM {l : EvalM F Γ α} {r : EvalM F Γ β} {P : Id → Prop} (hl : Stable l) (hr : Stable r)
    (hP : Frame P r) (k : α → β → Res IncShapes γ) : Stable (binM l r k) :=
  (hl.mapErr _).bind (fun _ => (hr.mapErr _).bind (fun _ => .lift _) (fun _ => Frame.lift (P := P) _))
    (fun _ => (hP.mapErr _).bind fun _ => .lift _)

theorem cached {i : Id} {m : EvalM F Γ (Buf F (Γ i))} :
    Stable (fun c => match c i with
        | some v => (.ok v, c)
        | none =>
            match m c with
            | (.ok v, c') => (.ok v, c'.write i v)
            | (.err e, c') => (.err e, c')
            | (.panic, c') => (.panic, c')) := by
  intro c v c' hm c'' hc
  have hi : c' i = some v := by
    match h : c i with
    | some w => simp only [h] at hm; cases hm; exact h
    | none =>
      simp only [h] at hm
      match h2 : m c with
      | (.ok w, c1) => rw [h2] at hm; cases hm; simp [Ctx.write]
      | (.err e, c1) => rw [h2] at hm; cases hm
      | (.panic, c1) => rw [h2] at hm; cases hm
  have hi'' : c'' i = some v := (hc i (by rw [hi]; simp)).trans hi
  simp [hi'']

end Stable

variable [Zero F] [One F] [Add F] [Sub F] [Mul F] [Div F] [Neg F] [ScalarFns F]

theorem FnImpl.stable {e : Node F} {τ : BTy} (d : FnImpl Γ e τ) :
    Stable d.fn.evaluate ∧ Stable d.fn.evaluateSpec ∧ Stable d.fn.evaluateShape := by
  have fr : ∀ {e : Node F} {τ : BTy} (d : FnImpl Γ e τ), Frame (fun _ => True) d.fn.evaluate ∧
      Frame (fun _ => True) d.fn.evaluateSpec ∧ Frame (fun _ => True) d.fn.evaluateShape :=
    fun d => d.frame (fun _ _ => trivial)
  have spec : ∀ {τ : BTy} {m : EvalM F Γ (BSpec F τ)} {s : EvalM F Γ (Shp τ)}, Stable m →
      Stable s → Stable (m.map BSpec.unwrap) ∧ Stable m ∧ Stable s :=
    fun h1 h2 => ⟨h1.map _, h1, h2⟩
  have rd : ∀ (i : Id) (g : EvalErr → EvalErr) {α : Type} (f : Shp (Γ i) → EvalM F Γ α)
      (_ : ∀ s, Stable (f s)) (_ : ∀ s, Frame (fun _ => True) (f s)),
      Stable (((((EvalM.read i).map (Buf.shape _)).mapErr g) : EvalM F Γ _).bind f) :=
    fun i g α f h1 h2 => (((Stable.read i).map _).mapErr g).bind h1 h2
  have frd : ∀ (i : Id) (g : EvalErr → EvalErr) {α : Type} (f : Shp (Γ i) → EvalM F Γ α)
      (_ : ∀ s, Frame (fun _ => True) (f s)),
      Frame (fun _ => True) (((((EvalM.read i).map (Buf.shape _)).mapErr g) : EvalM F Γ _).bind f) :=
    fun i g α f h1 => (((Frame.read i).map _).mapErr g).bind h1
  induction d with
  | var i => exact ⟨.read i, (Stable.read i).map _, (Stable.read i).map _⟩
  | varAdj i t k h =>
    exact spec (rd i _ _ (fun s => rd t _ _ (fun _ => .lift _) (fun _ => .lift _))
        (fun s => frd t _ _ (fun _ => .lift _)))
      (rd i _ _ (fun s => rd t _ _ (fun _ => .lift _) (fun _ => .lift _))
        (fun s => frd t _ _ (fun _ => .lift _)))
  | const τ b => exact spec (.lift _) (.lift _)
  | constSpec τ s => exact spec (.lift _) (.lift _)
  | constAdj d t k ih =>
    have hs : Stable (FnImpl.constAdj d t k).fn.evaluateShape :=
      (ih.2.2.mapErr _).bind (fun s => rd t _ _ (fun _ => .lift _) (fun _ => .lift _))
        (fun s => frd t _ _ (fun _ => .lift _))
    exact spec (hs.map _) hs
  | cached i d ih => exact ⟨.cached, Stable.cached.map _, Stable.cached.map _⟩
  | add dl dr z ihl ihr | sub dl dr z ihl ihr | mul dl dr z ihl ihr | contract dl dr z ihl ihr =>
    exact spec (.binM ihl.2.1 ihr.2.1 (fr dr).2.1 _) (.binM ihl.2.2 ihr.2.2 (fr dr).2.2 _)
  | div dl dr z ihl ihr =>
    have he : Stable (FnImpl.div dl dr z).fn.evaluate := .binM ihl.1 ihr.1 (fr dr).1 _
    exact ⟨he, he.map _, .binM ihl.2.2 ihr.2.2 (fr dr).2.2 _⟩
  | power dl dr ihl ihr => exact spec (.binM ihl.2.1 ihr.2.1 (fr dr).2.1 _) (.lift _)
  | sum d ih =>
    exact ⟨ih.1.map _, ih.2.1.bind (fun _ => .lift _) (fun _ => Frame.lift (P := fun _ => True) _), .lift _⟩
  | un op d ih => exact ⟨ih.1.map _, ih.2.1.map _, ih.2.2⟩

end Aegir
