import Verif.Lemmas.Eval
/-!
# What evaluation reads and writes
-/

namespace Aegir

open Spec

variable {F : Type} {Γ : Id → BTy} {α β γ : Type}

/-- `m` only fills empty entries, and only those in `P`. -/
def Frame (P : Id → Prop) (m : EvalM F Γ α) : Prop :=
  ∀ c j, (m c).2 j = c j ∨ (c j = none ∧ P j)

namespace Frame
variable {P Q : Id → Prop}

theorem mono {m : EvalM F Γ α} (h : Frame P m) (hpq : ∀ j, P j → Q j) : Frame Q m :=
  fun c j => (h c j).imp_right fun h => ⟨h.1, hpq j h.2⟩

theorem map {m : EvalM F Γ α} (h : Frame P m) (f : α → β) : Frame P (m.map f) := fun c j => h c j

theorem mapErr {m : EvalM F Γ α} (h : Frame P m) (f : EvalErr → EvalErr) : Frame P (m.mapErr f) :=
  fun c j => h c j

theorem lift (r : Res EvalErr α) : Frame P (EvalM.lift r : EvalM F Γ α) := fun _ _ => .inl rfl

theorem read (i : Id) : Frame P (EvalM.read i : EvalM F Γ _) := by
  intro c j
  left
  simp only [EvalM.read]
  split <;> rfl

theorem bind {m : EvalM F Γ α} {f : α → EvalM F Γ β} (h : Frame P m) (hf : ∀ a, Frame P (f a)) :
    Frame P (m.bind f) := by
  intro c j
  have h1 := h c j
  simp only [EvalM.bind]
  match hm : m c with
  | (.ok a, c') =>
    rw [hm] at h1
    rcases h1 with h1 | h1
    · have h1 : c' j = c j := h1
      rcases hf a c' j with h2 | h2
      · exact .inl (h2.trans h1)
      · rw [h1] at h2; exact .inr h2
    · exact .inr h1
  | (.err e, c') => rw [hm] at h1; exact h1
  | (.panic, c') => rw [hm] at h1; exact h1

theorem binM {l : EvalM F Γ α} {r : EvalM F Γ β} (hl : Frame P l) (hr : Frame P r)
    (k : α → β → Res IncShapes γ) : Frame P (binM l r k) :=
  (hl.mapErr _).bind fun _ => (hr.mapErr _).bind fun _ => .lift _

theorem cached {i : Id} {m : EvalM F Γ (Buf F (Γ i))} (h : Frame P m) (hi : P i) :
    Frame P (fun c => match c i with
        | some v => (.ok v, c)
        | none =>
            match m c with
            | (.ok v, c') => (.ok v, c'.write i v)
            | (.err e, c') => (.err e, c')
            | (.panic, c') => (.panic, c')) := by
  intro c j
  have h1 := h c j
  match hc : c i with
  | some v => simp [hc]
  | none =>
    simp only [hc]
    match hm : m c with
    | (.ok v, c') =>
      rw [hm] at h1
      by_cases hj : j = i
      · subst hj; exact .inr ⟨hc, hi⟩
      · simpa [Ctx.write, hj] using h1
    | (.err e, c') => rw [hm] at h1; exact h1
    | (.panic, c') => rw [hm] at h1; exact h1

end Frame

/-- Contexts that agree on `P` give the same outcome and agree on `P` afterwards. -/
def Local (P : Id → Prop) (m : EvalM F Γ α) : Prop :=
  ∀ c1 c2 : Ctx F Γ, (∀ i, P i → c1 i = c2 i) →
    (m c1).1 = (m c2).1 ∧ ∀ i, P i → (m c1).2 i = (m c2).2 i

namespace Local
variable {P Q : Id → Prop}

theorem map {m : EvalM F Γ α} (h : Local P m) (f : α → β) : Local P (m.map f) :=
  fun c1 c2 hc => ⟨congrArg (Res.map f) (h c1 c2 hc).1, (h c1 c2 hc).2⟩

theorem mapErr {m : EvalM F Γ α} (h : Local P m) (f : EvalErr → EvalErr) : Local P (m.mapErr f) :=
  fun c1 c2 hc => ⟨congrArg (Res.mapErr f) (h c1 c2 hc).1, (h c1 c2 hc).2⟩

theorem lift (r : Res EvalErr α) : Local P (EvalM.lift r : EvalM F Γ α) :=
  fun _ _ hc => ⟨rfl, hc⟩

theorem read {i : Id} (h : P i) : Local P (EvalM.read i : EvalM F Γ _) := by
  intro c1 c2 hc
  have := hc i h
  simp only [EvalM.read]
  rw [this]
  match c2 i with
  | some b => exact ⟨rfl, hc⟩
  | none => exact ⟨rfl, hc⟩

theorem bind {m : EvalM F Γ α} {f : α → EvalM F Γ β} (h : Local P m) (hf : ∀ a, Local P (f a)) :
    Local P (m.bind f) := by
  intro c1 c2 hc
  obtain ⟨h1, h2⟩ := h c1 c2 hc
  simp only [EvalM.bind]
  match hm1 : m c1, hm2 : m c2 with
  | (r1, c1'), (r2, c2') =>
    rw [hm1, hm2] at h1 h2
    cases (show r1 = r2 from h1)
    match r1 with
    | .ok a => exact hf a c1' c2' h2
    | .err e => exact ⟨rfl, h2⟩
    | .panic => exact ⟨rfl, h2⟩

theorem binM {l : EvalM F Γ α} {r : EvalM F Γ β} (hl : Local P l) (hr : Local P r)
    (k : α → β → Res IncShapes γ) : Local P (binM l r k) :=
  (hl.mapErr _).bind fun _ => (hr.mapErr _).bind fun _ => .lift _

theorem cached {i : Id} {m : EvalM F Γ (Buf F (Γ i))} (h : Local P m) (hi : P i) :
    Local P (fun c => match c i with
        | some v => (.ok v, c)
        | none =>
            match m c with
            | (.ok v, c') => (.ok v, c'.write i v)
            | (.err e, c') => (.err e, c')
            | (.panic, c') => (.panic, c')) := by
  intro c1 c2 hc
  obtain ⟨h1, h2⟩ := h c1 c2 hc
  have hci := hc i hi
  match hc2 : c2 i with
  | some v => simp only [hci, hc2]; exact ⟨trivial, hc⟩
  | none =>
    simp only [hci, hc2]
    match hm1 : m c1, hm2 : m c2 with
    | (r1, c1'), (r2, c2') =>
      rw [hm1, hm2] at h1 h2
      cases (show r1 = r2 from h1)
      match r1 with
      | .ok v =>
        refine ⟨rfl, fun j hj => ?_⟩
        by_cases hji : j = i
        · subst hji; simp [Ctx.write]
        · simpa [Ctx.write, hji] using h2 j hj
      | .err e => exact ⟨rfl, h2⟩
      | .panic => exact ⟨rfl, h2⟩

end Local

section
variable [Zero F] [One F] [Add F] [Sub F] [Mul F] [Div F] [Neg F] [ScalarFns F]

theorem FnImpl.frame {e : Node F} {τ : BTy} (d : FnImpl Γ e τ) {P : Id → Prop}
    (hP : ∀ i, CacheId e i → P i) :
    Frame P d.fn.evaluate ∧ Frame P d.fn.evaluateSpec ∧ Frame P d.fn.evaluateShape := by
  induction d with
  | var i => exact ⟨.read _, (Frame.read _).map _, (Frame.read _).map _⟩
  | varAdj i t k h =>
    have key : ∀ {α : Type} (f : Shp (Γ i) → Shp (Γ t) → Res EvalErr α), Frame P
        ((((EvalM.read i).map (Buf.shape _)).mapErr EvalErr.left).bind fun si =>
          (((EvalM.read t).map (Buf.shape _)).mapErr EvalErr.right).bind fun st =>
            (EvalM.lift (f si st) : EvalM F Γ α)) := fun f =>
      (((Frame.read i).map _).mapErr _).bind fun _ => (((Frame.read t).map _).mapErr _).bind
        fun _ => .lift _
    exact ⟨(key _).map _, key _, key _⟩
  | const τ b => exact ⟨(Frame.lift _).map _, .lift _, .lift _⟩
  | constSpec τ s => exact ⟨(Frame.lift _).map _, .lift _, .lift _⟩
  | constAdj d t k ih =>
    have ih := ih (fun i hi => hP i (hi.child (by simp [children])))
    have key := ((ih.2.2).mapErr EvalErr.left).bind (f := fun sn =>
        (((EvalM.read t).map (Buf.shape _)).mapErr EvalErr.right).bind fun st =>
          EvalM.lift (.ok (k.shape sn st)))
      fun _ => (((Frame.read t).map _).mapErr _).bind fun _ => .lift _
    exact ⟨(key.map _).map _, key.map _, key⟩
  | cached i d ih =>
    have ih := ih (fun i hi => hP i (hi.child (by simp [children])))
    have key := Frame.cached ih.1 (hP i ⟨_, .refl _⟩)
    exact ⟨key, key.map _, key.map _⟩
  | add dl dr z ihl ihr =>
    have ihl := ihl (fun i hi => hP i (hi.child (by simp [children])))
    have ihr := ihr (fun i hi => hP i (hi.child (by simp [children])))
    exact ⟨(ihl.2.1.binM ihr.2.1 _).map _, ihl.2.1.binM ihr.2.1 _,
      ihl.2.2.binM ihr.2.2 _⟩
  | sub dl dr z ihl ihr =>
    have ihl := ihl (fun i hi => hP i (hi.child (by simp [children])))
    have ihr := ihr (fun i hi => hP i (hi.child (by simp [children])))
    exact ⟨(ihl.2.1.binM ihr.2.1 _).map _, ihl.2.1.binM ihr.2.1 _,
      ihl.2.2.binM ihr.2.2 _⟩
  | mul dl dr z ihl ihr =>
    have ihl := ihl (fun i hi => hP i (hi.child (by simp [children])))
    have ihr := ihr (fun i hi => hP i (hi.child (by simp [children])))
    exact ⟨(ihl.2.1.binM ihr.2.1 _).map _, ihl.2.1.binM ihr.2.1 _,
      ihl.2.2.binM ihr.2.2 _⟩
  | div dl dr z ihl ihr =>
    have ihl := ihl (fun i hi => hP i (hi.child (by simp [children])))
    have ihr := ihr (fun i hi => hP i (hi.child (by simp [children])))
    exact ⟨ihl.1.binM ihr.1 _, (ihl.1.binM ihr.1 _).map _,
      ihl.2.2.binM ihr.2.2 _⟩
  | power dl dr ihl ihr =>
    have ihl := ihl (fun i hi => hP i (hi.child (by simp [children])))
    have ihr := ihr (fun i hi => hP i (hi.child (by simp [children])))
    exact ⟨(ihl.2.1.binM ihr.2.1 _).map _, ihl.2.1.binM ihr.2.1 _, .lift _⟩
  | contract dl dr z ihl ihr =>
    have ihl := ihl (fun i hi => hP i (hi.child (by simp [children])))
    have ihr := ihr (fun i hi => hP i (hi.child (by simp [children])))
    exact ⟨(ihl.2.1.binM ihr.2.1 _).map _, ihl.2.1.binM ihr.2.1 _,
      ihl.2.2.binM ihr.2.2 _⟩
  | sum d ih =>
    have ih := ih (fun i hi => hP i (hi.child (by simp [children])))
    exact ⟨ih.1.map _, ih.2.1.bind fun _ => .lift _, .lift _⟩
  | un op d ih =>
    have ih := ih (fun i hi => hP i (hi.child (by simp [children])))
    exact ⟨ih.1.map _, ih.2.1.map _, ih.2.2⟩

theorem FnImpl.local {e : Node F} {τ : BTy} (d : FnImpl Γ e τ) {P : Id → Prop}
    (hP : ∀ i, e.contains i = true → P i) :
    Local P d.fn.evaluate ∧ Local P d.fn.evaluateSpec ∧ Local P d.fn.evaluateShape := by
  induction d with
  | var i =>
    have hi : P i := hP i (by simp [Node.contains])
    exact ⟨.read hi, (Local.read hi).map _, (Local.read hi).map _⟩
  | varAdj i t k h =>
    have hi : P i := hP i (by simp [Node.contains])
    have ht : P t := hP t (by simp [Node.contains])
    have key : ∀ {α : Type} (f : Shp (Γ i) → Shp (Γ t) → Res EvalErr α), Local P
        ((((EvalM.read i).map (Buf.shape _)).mapErr EvalErr.left).bind fun si =>
          (((EvalM.read t).map (Buf.shape _)).mapErr EvalErr.right).bind fun st =>
            (EvalM.lift (f si st) : EvalM F Γ α)) := fun f =>
      (((Local.read hi).map _).mapErr _).bind fun _ => (((Local.read ht).map _).mapErr _).bind
        fun _ => .lift _
    exact ⟨(key _).map _, key _, key _⟩
  | const τ b => exact ⟨(Local.lift _).map _, .lift _, .lift _⟩
  | constSpec τ s => exact ⟨(Local.lift _).map _, .lift _, .lift _⟩
  | constAdj d t k ih =>
    have ih := ih (fun i hi => hP i (by simp [Node.contains, hi]))
    have ht : P t := hP t (by simp [Node.contains])
    have key := ((ih.2.2).mapErr EvalErr.left).bind (f := fun sn =>
        (((EvalM.read t).map (Buf.shape _)).mapErr EvalErr.right).bind fun st =>
          EvalM.lift (.ok (k.shape sn st)))
      fun _ => (((Local.read ht).map _).mapErr _).bind fun _ => .lift _
    exact ⟨(key.map _).map _, key.map _, key⟩
  | cached i d ih =>
    have ih := ih (fun i hi => hP i (by simp [Node.contains, hi]))
    have key := Local.cached ih.1 (hP i (by simp [Node.contains]))
    exact ⟨key, key.map _, key.map _⟩
  | add dl dr z ihl ihr | sub dl dr z ihl ihr | mul dl dr z ihl ihr | contract dl dr z ihl ihr =>
    have ihl := ihl (fun i hi => hP i (by simp [Node.contains, hi]))
    have ihr := ihr (fun i hi => hP i (by simp [Node.contains, hi]))
    exact ⟨(ihl.2.1.binM ihr.2.1 _).map _, ihl.2.1.binM ihr.2.1 _, ihl.2.2.binM ihr.2.2 _⟩
  | div dl dr z ihl ihr =>
    have ihl := ihl (fun i hi => hP i (by simp [Node.contains, hi]))
    have ihr := ihr (fun i hi => hP i (by simp [Node.contains, hi]))
    exact ⟨ihl.1.binM ihr.1 _, (ihl.1.binM ihr.1 _).map _, ihl.2.2.binM ihr.2.2 _⟩
  | power dl dr ihl ihr =>
    have ihl := ihl (fun i hi => hP i (by simp [Node.contains, hi]))
    have ihr := ihr (fun i hi => hP i (by simp [Node.contains, hi]))
    exact ⟨(ihl.2.1.binM ihr.2.1 _).map _, ihl.2.1.binM ihr.2.1 _, .lift _⟩
  | sum d ih =>
    have ih := ih (fun i hi => hP i (by simp [Node.contains, hi]))
    exact ⟨ih.1.map _, ih.2.1.bind fun _ => .lift _, .lift _⟩
  | un op d ih =>
    have ih := ih (fun i hi => hP i (by simp [Node.contains, hi]))
    exact ⟨ih.1.map _, ih.2.1.map _, ih.2.2⟩

/-- Without `Cached` nodes evaluation does not touch the context. -/
theorem FnImpl.ctx_eq {e : Node F} {τ : BTy} (d : FnImpl Γ e τ) (h : CacheFree e) (c : Ctx F Γ) :
    (d.fn.evaluate c).2 = c ∧ (d.fn.evaluateSpec c).2 = c ∧ (d.fn.evaluateShape c).2 = c := by
  have hf := d.frame (P := fun _ => False) (fun i ⟨n, hn⟩ => h n i hn)
  exact ⟨funext fun j => (hf.1 c j).resolve_right (·.2), funext fun j => (hf.2.1 c j).resolve_right (·.2),
    funext fun j => (hf.2.2 c j).resolve_right (·.2)⟩

end

end Aegir
