import Verif.Lemmas.EvalShape
import Verif.Spec.Errors
/-!
# Errors and success of evaluation
-/

namespace Aegir

open Spec

variable {F : Type} {Γ : Id → BTy} {α β γ : Type}

namespace EvalM

theorem bind_err_iff (m : EvalM F Γ α) (f : α → EvalM F Γ β) (c c'' : Ctx F Γ) (e : EvalErr) :
    m.bind f c = (.err e, c'') ↔
      m c = (.err e, c'') ∨ ∃ a c', m c = (.ok a, c') ∧ f a c' = (.err e, c'') := by
  simp only [bind]
  match m c with
  | (.ok a, c') =>
    constructor
    · intro h; exact .inr ⟨a, c', rfl, h⟩
    · rintro (h | ⟨a', c1, h1, h2⟩)
      · cases h
      · cases h1; exact h2
  | (.err e, c') => simp
  | (.panic, c') => simp

theorem map_err_iff (m : EvalM F Γ α) (f : α → β) (c c' : Ctx F Γ) (e : EvalErr) :
    m.map f c = (.err e, c') ↔ m c = (.err e, c') := by
  simp only [map]
  match m c with
  | (.ok a, c1) => simp
  | (.err e, c1) => simp
  | (.panic, c1) => simp

theorem mapErr_err_iff (m : EvalM F Γ α) (f : EvalErr → EvalErr) (c c' : Ctx F Γ) (e : EvalErr) :
    m.mapErr f c = (.err e, c') ↔ ∃ g, m c = (.err g, c') ∧ f g = e := by
  simp only [mapErr]
  match m c with
  | (.ok a, c1) => simp
  | (.err e, c1) => simp [Prod.ext_iff]; tauto
  | (.panic, c1) => simp

theorem lift_err_iff (r : Res EvalErr α) (c c' : Ctx F Γ) (e : EvalErr) :
    (lift r : EvalM F Γ α) c = (.err e, c') ↔ r = .err e ∧ c' = c := by
  simp only [lift, Prod.mk.injEq]; tauto

theorem read_err_iff (i : Id) (c c' : Ctx F Γ) (e : EvalErr) :
    (read i : EvalM F Γ _) c = (.err e, c') ↔ c i = none ∧ e = .undefined i ∧ c' = c := by
  simp only [read]
  match h : c i with
  | some b' => simp
  | none => simp [Prod.ext_iff]; tauto

end EvalM

theorem Res.mapErr_err_iff {ε ε' : Type} (g : ε → ε') (r : Res ε α) (e : ε') :
    r.mapErr g = .err e ↔ ∃ f, r = .err f ∧ g f = e := by cases r <;> simp

theorem Res.map_err_iff {ε : Type} (g : α → β) (r : Res ε α) (e : ε) :
    r.map g = .err e ↔ r = .err e := by cases r <;> simp

theorem Res.map_ok_iff {ε : Type} (g : α → β) (r : Res ε α) (b : β) :
    r.map g = .ok b ↔ ∃ a, r = .ok a ∧ g a = b := by cases r <;> simp

theorem Res.ofExcept_err_iff {ε : Type} (r : Except ε α) (e : ε) :
    Res.ofExcept r = .err e ↔ r = .error e := by cases r <;> simp

theorem Res.ok_ne_err {ε : Type} {x : α} {e : ε} : (Res.ok x : Res ε α) ≠ .err e :=
  fun h => by cases h

theorem Res.ofOption_ne_err {ε : Type} (r : Option α) (e : ε) : Res.ofOption r ≠ .err e := by
  cases r <;> simp

/-- The errors of a binary operator. -/
theorem binM_err_iff (l : EvalM F Γ α) (r : EvalM F Γ β) (k : α → β → Res IncShapes γ)
    (c c' : Ctx F Γ) (e : EvalErr) :
    binM l r k c = (.err e, c') ↔
      (∃ g, l c = (.err g, c') ∧ e = .left g) ∨
      (∃ x c1 g, l c = (.ok x, c1) ∧ r c1 = (.err g, c') ∧ e = .right g) ∨
      (∃ x c1 y s, l c = (.ok x, c1) ∧ r c1 = (.ok y, c') ∧ k x y = .err s ∧ e = .output s) := by
  simp only [binM, EvalM.bind_err_iff, EvalM.mapErr_err_iff, EvalM.mapErr_ok_iff,
    EvalM.lift_err_iff, Res.mapErr_err_iff]
  constructor
  · rintro (⟨g, h1, rfl⟩ | ⟨x, c1, h1, ⟨g, h2, rfl⟩ | ⟨y, c2, h2, ⟨s, h3, rfl⟩, rfl⟩⟩)
    · exact .inl ⟨g, h1, rfl⟩
    · exact .inr (.inl ⟨x, c1, g, h1, h2, rfl⟩)
    · exact .inr (.inr ⟨x, c1, y, s, h1, h2, h3, rfl⟩)
  · rintro (⟨g, h1, rfl⟩ | ⟨x, c1, g, h1, h2, rfl⟩ | ⟨x, c1, y, s, h1, h2, h3, rfl⟩)
    · exact .inl ⟨g, h1, rfl⟩
    · exact .inr ⟨x, c1, h1, .inl ⟨g, h2, rfl⟩⟩
    · exact .inr ⟨x, c1, h1, .inr ⟨y, c', h2, ⟨s, h3, rfl⟩, rfl⟩⟩

theorem Spec.OwnError.mono {c1 c : Ctx F Γ} {s : Node F} {f : EvalErr} (h : OwnError c1 s f)
    (hc : ∀ i, c1 i = none → c i = none) : OwnError c s f := by
  cases h with
  | var h => exact .var (hc _ h)
  | varAdjValue h => exact .varAdjValue (hc _ h)
  | varAdjTarget h => exact .varAdjTarget (hc _ h)
  | constAdjTarget h => exact .constAdjTarget (hc _ h)
  | add h => exact .add h
  | sub h => exact .sub h
  | mul h => exact .mul h
  | div h => exact .div h

theorem Frame.none_of_none {P : Id → Prop} {m : EvalM F Γ α} (h : Frame P m) {c c' : Ctx F Γ}
    {r : Res EvalErr α} (hm : m c = (r, c')) (i : Id) (hi : c' i = none) : c i = none := by
  have := h c i
  rw [hm] at this
  rcases this with h1 | h1
  · rw [← h1]; exact hi
  · exact h1.1

theorem Frame.some_of_some {P : Id → Prop} {m : EvalM F Γ α} (h : Frame P m) {c c' : Ctx F Γ}
    {r : Res EvalErr α} (hm : m c = (r, c')) (i : Id) (hi : c i ≠ none) : c' i ≠ none :=
  fun h' => hi (h.none_of_none hm i h')

section
variable [Zero F] [Add F] [Mul F]

/-- No contraction reports an error (it panics instead). -/
theorem bufContract_ne_err {axes : Nat} {a b c : BTy} (z : ContractImpl axes a b c) (x : Buf F a)
    (y : Buf F b) (e : IncShapes) : Buf.contract z x y ≠ .err e := by
  cases z <;> simp only [Buf.contract] <;>
    first
      | exact Res.ofOption_ne_err _ _
      | exact fun h => by cases h

variable [ScalarFns F]

omit [ScalarFns F] in
theorem dense_ne_err {axes : Nat} {a b c : BTy} (z : ContractImpl axes a b c) (x : BSpec F a)
    (y : BSpec F b) (e : IncShapes) : BSpec.denseContract z x y ≠ .err e := by
  rw [BSpec.denseContract, Ne, Res.map_err_iff]
  exact bufContract_ne_err z _ _ e

theorem contract_ne_err {axes : Nat} {a b c : BTy} (z : ContractImpl axes a b c) (x : BSpec F a)
    (y : BSpec F b) (e : IncShapes) : BSpec.contract z x y ≠ .err e := by
  have key : ∀ {δ : Type} (o : Option F) (g : F → δ) (e : IncShapes),
      (Res.ofOption o).map g ≠ .err e := by
    intro δ o g e; cases o <;> simp
  have fold : ∀ (n : Nat) (x y : NArr F [n]) (f : F → F × F → F),
      (Buf.zipFold (.aa [n]) x y 0 f).map BSpec.raw ≠ (.err e : Res IncShapes (BSpec F .scalar)) := by
    intro n x y f
    rw [Ne, Res.map_err_iff]; exact Res.ofOption_ne_err _ _
  cases z <;> cases x <;> cases y <;> simp only [BSpec.contract] <;>
    first
      | exact dense_ne_err _ _ _ _
      | exact key _ _ _
      | exact fold _ _ _ _
      | exact fun h => by cases h
      | (split <;> first | exact dense_ne_err _ _ _ _ | exact fun h => by cases h)

end

section
variable [Zero F] [One F] [Add F] [Sub F] [Mul F] [Div F] [Neg F] [ScalarFns F]

omit [One F] [Sub F] [Div F] [Neg F] in
theorem sumSpec_ne_err {τ : BTy} (x : BSpec F τ) (e : EvalErr) : sumSpec x ≠ .err e := by
  cases x with
  | full s v =>
    simp only [sumSpec]
    rw [Ne, Res.map_err_iff]; exact Res.ofOption_ne_err _ _
  | _ => exact fun h => by cases h

/-- `evaluate` and `evaluate_spec` fail with the same errors, whatever the scalars. -/
theorem FnImpl.evaluate_err_iff {e : Node F} {τ : BTy} (d : FnImpl Γ e τ) (c c' : Ctx F Γ)
    (g : EvalErr) : d.fn.evaluate c = (.err g, c') ↔ d.fn.evaluateSpec c = (.err g, c') := by
  have spec : ∀ {α β : Type} (m : EvalM F Γ α) (f : α → β) (c c' : Ctx F Γ) (g : EvalErr),
      m c = (.err g, c') ↔ m.map f c = (.err g, c') :=
    fun m f c c' g => (EvalM.map_err_iff m f c c' g).symm
  induction d with
  | var i => exact spec _ _ _ _ _
  | varAdj i t k h => exact (spec _ _ _ _ _).symm
  | const τ b => exact (spec _ _ _ _ _).symm
  | constSpec τ s => exact (spec _ _ _ _ _).symm
  | constAdj d t k ih => exact (spec _ _ _ _ _).symm
  | cached i d ih => exact spec (FnImpl.cached i d).fn.evaluate _ _ _ _
  | add dl dr z _ _ => exact (spec _ _ _ _ _).symm
  | sub dl dr z _ _ => exact (spec _ _ _ _ _).symm
  | mul dl dr z _ _ => exact (spec _ _ _ _ _).symm
  | div dl dr z _ _ => exact spec _ _ _ _ _
  | power dl dr _ _ => exact (spec _ _ _ _ _).symm
  | contract dl dr z _ _ => exact (spec _ _ _ _ _).symm
  | sum d ih =>
    refine (EvalM.map_err_iff _ _ _ _ _).trans (ih.trans ?_)
    refine Iff.trans ?_ (EvalM.bind_err_iff _ _ _ _ _).symm
    constructor
    · exact fun h => .inl h
    · rintro (h | ⟨a, c1, _, h⟩)
      · exact h
      · exact absurd ((EvalM.lift_err_iff _ _ _ _).1 h).1 (sumSpec_ne_err _ _)
  | un op d ih =>
    exact (EvalM.map_err_iff _ _ _ _ _).trans (ih.trans (spec _ _ _ _ _))

/-- Following an error leads to a node with that error of its own. -/
theorem FnImpl.errorAt {e : Node F} {τ : BTy} (d : FnImpl Γ e τ) :
    (∀ c c' g, d.fn.evaluateSpec c = (.err g, c') → ∃ s f, ErrorAt e g s f ∧ OwnError c s f) ∧
    (∀ c c' g, d.fn.evaluateShape c = (.err g, c') → ∃ s f, ErrorAt e g s f ∧ OwnError c s f) := by
  have adj : ∀ (i t : Id) {α : Type} (f : Shp (Γ i) → Shp (Γ t) → Res EvalErr α)
      (_ : ∀ si st e, f si st ≠ .err e) (c c' : Ctx F Γ) (g : EvalErr),
      ((((EvalM.read i).map (Buf.shape _)).mapErr EvalErr.left).bind fun si =>
          (((EvalM.read t).map (Buf.shape _)).mapErr EvalErr.right).bind fun st =>
            (EvalM.lift (f si st) : EvalM F Γ α)) c = (.err g, c') →
      ∃ s f, ErrorAt (.varAdj i t : Node F) g s f ∧ OwnError c s f := by
    intro i t α f hf c c' g hg
    refine ⟨_, _, .here _ _, ?_⟩
    simp only [EvalM.bind_err_iff, EvalM.mapErr_err_iff, EvalM.map_err_iff, EvalM.read_err_iff,
      EvalM.mapErr_ok_iff, EvalM.map_ok_iff, EvalM.read_ok_iff, EvalM.lift_err_iff] at hg
    rcases hg with ⟨g', ⟨h1, rfl, _⟩, rfl⟩ | ⟨si, c1, ⟨b, ⟨h1, rfl⟩, _⟩,
      ⟨g', ⟨h2, rfl, _⟩, rfl⟩ | ⟨st, c2, _, h3, _⟩⟩
    · exact .varAdjValue h1
    · exact .varAdjTarget h2
    · exact absurd h3 (hf _ _ _)
  have bin : ∀ {α β γ : Type} {e l r : Node F} {a b : BTy} (dl : FnImpl Γ l a) (dr : FnImpl Γ r b)
      (hch : children e = [l, r]) (ml : EvalM F Γ α) (mr : EvalM F Γ β)
      (k : α → β → Res IncShapes γ) (hfl : ∀ (P : Id → Prop), (∀ i, CacheId l i → P i) → Frame P ml)
      (hk : ∀ x y s, k x y = .err s → ∀ c : Ctx F Γ, OwnError c e (.output s))
      (hl : ∀ c c' g, ml c = (.err g, c') → ∃ s f, ErrorAt l g s f ∧ OwnError c s f)
      (hr : ∀ c c' g, mr c = (.err g, c') → ∃ s f, ErrorAt r g s f ∧ OwnError c s f),
      ∀ c c' g, binM ml mr k c = (.err g, c') → ∃ s f, ErrorAt e g s f ∧ OwnError c s f := by
    intro α β γ e l r a b dl dr hch ml mr k hfl hk hl hr c c' g hg
    rcases (binM_err_iff _ _ _ _ _ _).1 hg with ⟨g', h1, rfl⟩ | ⟨x, c1, g', h1, h2, rfl⟩ |
      ⟨x, c1, y, s, h1, h2, h3, rfl⟩
    · obtain ⟨s, f, hs, ho⟩ := hl _ _ _ h1
      exact ⟨s, f, .left hch hs, ho⟩
    · obtain ⟨s, f, hs, ho⟩ := hr _ _ _ h2
      refine ⟨s, f, .right hch hs, ho.mono (fun i hi => ?_)⟩
      exact (hfl (fun _ => True) (fun _ _ => trivial)).none_of_none h1 i hi
    · exact ⟨e, _, .here _ _, hk _ _ _ h3 c⟩
  have bc : ∀ {a b c : BTy} (z : ZipImpl a b c) (s : Shp a) (t : Shp b) (e : IncShapes),
      z.broadcast s t = .error e → ∀ ds, ¬ BCast e.left e.right ds := by
    intro a b c z s t e h ds
    obtain ⟨rfl, h2⟩ := broadcast_error z s t e h
    exact h2 ds
  induction d with
  | var i =>
    constructor <;> intro c c' g hg <;>
    · obtain ⟨h1, rfl, _⟩ := (EvalM.read_err_iff _ _ _ _).1 ((EvalM.map_err_iff _ _ _ _ _).1 hg)
      exact ⟨_, _, .here _ _, .var h1⟩
  | varAdj i t k h =>
    refine ⟨adj i t _ (fun si st e he => ?_), adj i t _ (fun si st e he => absurd he Res.ok_ne_err)⟩
    obtain ⟨s, hs, _⟩ := varAdjSpec_ok (F := F) i t k si st
    rw [he] at hs; cases hs
  | const τ b =>
    constructor <;> intro c c' g hg <;> cases ((EvalM.lift_err_iff _ _ _ _).1 hg).1
  | constSpec τ s =>
    constructor <;> intro c c' g hg <;> cases ((EvalM.lift_err_iff _ _ _ _).1 hg).1
  | constAdj d t k ih =>
    rename_i n _ _
    have key : ∀ c c' g, (FnImpl.constAdj d t k).fn.evaluateShape c = (.err g, c') →
        ∃ s f, ErrorAt (.constAdj n t) g s f ∧ OwnError c s f := by
      intro c c' g hg
      rcases (EvalM.bind_err_iff _ _ _ _ _).1 hg with h | ⟨sn, c1, h1, h2⟩
      · obtain ⟨g', h1, rfl⟩ := (EvalM.mapErr_err_iff _ _ _ _ _).1 h
        obtain ⟨s, f, hs, ho⟩ := ih.2 _ _ _ h1
        exact ⟨s, f, .constAdj hs, ho⟩
      · rcases (EvalM.bind_err_iff _ _ _ _ _).1 h2 with h | ⟨st, c2, _, h3⟩
        · obtain ⟨g', h3, rfl⟩ := (EvalM.mapErr_err_iff _ _ _ _ _).1 h
          obtain ⟨h4, rfl, _⟩ := (EvalM.read_err_iff _ _ _ _).1
            ((EvalM.map_err_iff _ _ _ _ _).1 h3)
          refine ⟨_, _, .here _ _, .constAdjTarget ?_⟩
          have h1' := (EvalM.mapErr_ok_iff _ _ _ _ _).1 h1
          exact (d.frame (P := fun _ => True) (fun _ _ => trivial)).2.2.none_of_none h1' t h4
        · cases ((EvalM.lift_err_iff _ _ _ _).1 h3).1
    exact ⟨fun c c' g hg => key c c' g ((EvalM.map_err_iff _ _ _ _ _).1 hg), key⟩
  | cached i d ih =>
    rename_i n
    have key : ∀ c c' g, (FnImpl.cached i d).fn.evaluate c = (.err g, c') →
        ∃ s f, ErrorAt (.cached n i) g s f ∧ OwnError c s f := by
      intro c c' g hg
      have hd : d.fn.evaluate c = (.err g, c') := by
        simp only [FnImpl.fn] at hg
        match hc : c i with
        | some v => rw [hc] at hg; cases hg
        | none =>
          rw [hc] at hg
          match hm : d.fn.evaluate c with
          | (.ok v, c1) => rw [hm] at hg; cases hg
          | (.err e, c1) => rw [hm] at hg; exact hg
          | (.panic, c1) => rw [hm] at hg; cases hg
      obtain ⟨s, f, hs, ho⟩ := ih.1 _ _ _ ((d.evaluate_err_iff _ _ _).1 hd)
      exact ⟨s, f, .cached hs, ho⟩
    exact ⟨fun c c' g hg => key c c' g ((EvalM.map_err_iff _ _ _ _ _).1 hg),
      fun c c' g hg => key c c' g ((EvalM.map_err_iff _ _ _ _ _).1 hg)⟩
  | add dl dr z ihl ihr =>
    exact ⟨bin dl dr rfl _ _ _ (fun P hP => (dl.frame hP).2.1)
      (fun x y s hs c => .add (bc z _ _ _ ((addSpec_follows z x y).err hs))) ihl.1 ihr.1,
      bin dl dr rfl _ _ _ (fun P hP => (dl.frame hP).2.2)
      (fun x y s hs c => .add (bc z _ _ _ ((Res.ofExcept_err_iff _ _).1 hs))) ihl.2 ihr.2⟩
  | sub dl dr z ihl ihr =>
    exact ⟨bin dl dr rfl _ _ _ (fun P hP => (dl.frame hP).2.1)
      (fun x y s hs c => .sub (bc z _ _ _ ((subSpec_follows z x y).err hs))) ihl.1 ihr.1,
      bin dl dr rfl _ _ _ (fun P hP => (dl.frame hP).2.2)
      (fun x y s hs c => .sub (bc z _ _ _ ((Res.ofExcept_err_iff _ _).1 hs))) ihl.2 ihr.2⟩
  | mul dl dr z ihl ihr =>
    exact ⟨bin dl dr rfl _ _ _ (fun P hP => (dl.frame hP).2.1)
      (fun x y s hs c => .mul (bc z _ _ _ ((mulSpec_follows z x y).err hs))) ihl.1 ihr.1,
      bin dl dr rfl _ _ _ (fun P hP => (dl.frame hP).2.2)
      (fun x y s hs c => .mul (bc z _ _ _ ((Res.ofExcept_err_iff _ _).1 hs))) ihl.2 ihr.2⟩
  | div dl dr z ihl ihr =>
    have key := bin dl dr (e := .div _ _) rfl dl.fn.evaluate dr.fn.evaluate
      (fun x y => Res.ofExcept (Buf.zipMapId z x y (· / ·))) (fun P hP => (dl.frame hP).1)
      (fun x y s hs c => .div (fun ds => by
        rw [Res.ofExcept_err_iff, Buf.zipMapId_eq] at hs
        obtain ⟨rfl, h⟩ := Buf.zipMap_error z x y _ s hs
        exact h ds))
      (fun c c' g hg => ihl.1 c c' g ((dl.evaluate_err_iff _ _ _).1 hg))
      (fun c c' g hg => ihr.1 c c' g ((dr.evaluate_err_iff _ _ _).1 hg))
    exact ⟨fun c c' g hg => key c c' g ((EvalM.map_err_iff _ _ _ _ _).1 hg),
      bin dl dr rfl _ _ _ (fun P hP => (dl.frame hP).2.2)
      (fun x y s hs c => .div (bc z _ _ _ ((Res.ofExcept_err_iff _ _).1 hs))) ihl.2 ihr.2⟩
  | power dl dr ihl ihr =>
    refine ⟨bin dl dr rfl _ _ _ (fun P hP => (dl.frame hP).2.1)
      (fun x y s hs c => absurd hs Res.ok_ne_err) ihl.1 ihr.1, ?_⟩
    intro c c' g hg; cases ((EvalM.lift_err_iff _ _ _ _).1 hg).1
  | contract dl dr z ihl ihr =>
    refine ⟨bin dl dr rfl _ _ _ (fun P hP => (dl.frame hP).2.1)
      (fun x y s hs c => absurd hs (contract_ne_err z x y s)) ihl.1 ihr.1,
      bin dl dr rfl _ _ _ (fun P hP => (dl.frame hP).2.2)
      (fun x y s hs c => ?_) ihl.2 ihr.2⟩
    rw [Res.ofExcept_err_iff] at hs
    cases z <;> cases hs
  | sum d ih =>
    constructor
    · intro c c' g hg
      rcases (EvalM.bind_err_iff _ _ _ _ _).1 hg with h | ⟨a, c1, _, h⟩
      · obtain ⟨s, f, hs, ho⟩ := ih.1 _ _ _ h
        exact ⟨s, f, .sum hs, ho⟩
      · exact absurd ((EvalM.lift_err_iff _ _ _ _).1 h).1 (sumSpec_ne_err _ _)
    · intro c c' g hg; cases ((EvalM.lift_err_iff _ _ _ _).1 hg).1
  | un op d ih =>
    constructor
    · intro c c' g hg
      obtain ⟨s, f, hs, ho⟩ := ih.1 _ _ _ ((EvalM.map_err_iff _ _ _ _ _).1 hg)
      exact ⟨s, f, .un hs, ho⟩
    · intro c c' g hg
      obtain ⟨s, f, hs, ho⟩ := ih.2 _ _ _ hg
      exact ⟨s, f, .un hs, ho⟩

end

end Aegir
