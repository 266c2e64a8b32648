import Verif.Spec.Caching
import Verif.Lemmas.ContractSpec
import Verif.Lemmas.OpSpec
import Verif.Lemmas.Total
/-!
# Evaluation with coherent caches

`FnImpl.denote` evaluates on buffers only, ignoring caches and compression; evaluation with coherent
caches agrees with it.
-/

namespace Aegir

open Spec

variable {F : Type} {Γ : Id → BTy} {α β γ : Type}

theorem uncached_cacheFree (e : Node F) : CacheFree (uncached e) := by
  have key : ∀ (e : Node F) (n : Node F) (i : Id),
      ¬ (Node.cached n i = e) → (∀ e' ∈ children e, CacheFree e') → ¬ SubExpr (.cached n i) e := by
    intro e n i h1 h2 hs
    cases hs with
    | refl => exact h1 rfl
    | step hc hs => exact h2 _ hc n i hs
  induction e with
  | cached n i ih => exact ih
  | var | varAdj | const | constSpec =>
    intro n i
    exact key _ _ _ (by simp [uncached]) (by simp [uncached, children])
  | constAdj n t ih | sum n ih | un op n ih =>
    intro n i
    exact key _ _ _ (by simp [uncached]) (by simpa [uncached, children] using ih)
  | add l r ihl ihr | sub l r ihl ihr | mul l r ihl ihr | div l r ihl ihr | power l r ihl ihr
  | contract k l r ihl ihr =>
    intro n i
    exact key _ _ _ (by simp [uncached]) (by simpa [uncached, children] using ⟨ihl, ihr⟩)

theorem uncached_explicit (e : Node F) : Explicit (uncached e) ↔ Explicit e := by
  induction e with
  | cached n i ih => simpa [uncached, Explicit] using ih
  | var | varAdj | const | constSpec | constAdj | div | contract => simp [uncached, Explicit]
  | sum n ih | un op n ih => simpa [uncached, Explicit] using ih
  | add l r ihl ihr | sub l r ihl ihr | mul l r ihl ihr | power l r ihl ihr =>
    simp [uncached, Explicit, ihl, ihr]

theorem CacheSafe.strip {e : Node F} {τ : BTy} (d : FnImpl Γ e τ) (h : FnImpl.CacheSafe d) :
    FnImpl.CacheSafe (FnImpl.strip d) := by
  induction d with
  | var | varAdj | const | constSpec => trivial
  | constAdj d t k ih => exact ⟨ih h.1, uncached_cacheFree _⟩
  | cached i d ih => exact ih h
  | sum d ih | un op d ih => exact ih h
  | add dl dr z ihl ihr | mul dl dr z ihl ihr | div dl dr z ihl ihr => exact ⟨ihl h.1, ihr h.2⟩
  | sub dl dr z ihl ihr => exact ⟨ihl h.1, ihr h.2.1, h.2.2⟩
  | power dl dr ihl ihr => exact ⟨ihl h.1, ihr h.2.1, (uncached_explicit _).2 h.2.2⟩
  | contract dl dr z ihl ihr => exact ⟨ihl h.1, ihr h.2.1, h.2.2⟩

/-- An expression without caches uses any family of caches not stored under identifiers it
contains. -/
theorem uses_of_cacheFree (K : Caches F Γ) {e : Node F} {τ : BTy} (d : FnImpl Γ e τ)
    (hf : CacheFree e) (h : ∀ i, e.contains i = true → K i = none) : FnImpl.Uses K d := by
  induction d with
  | var i => exact h i (by simp [Node.contains])
  | varAdj i t k hr => exact ⟨h i (by simp [Node.contains]), h t (by simp [Node.contains])⟩
  | const | constSpec => trivial
  | constAdj d t k ih =>
    exact ⟨ih (hf.child (by simp [children])) fun i hi => h i (by simp [Node.contains, hi]),
      h t (by simp [Node.contains])⟩
  | cached i d ih => exact absurd (SubExpr.refl _) (hf _ _)
  | sum d ih | un op d ih =>
    exact ih (hf.child (by simp [children])) fun i hi => h i (by simp [Node.contains, hi])
  | add dl dr z ihl ihr | sub dl dr z ihl ihr | mul dl dr z ihl ihr | div dl dr z ihl ihr
  | power dl dr ihl ihr | contract dl dr z ihl ihr =>
    exact ⟨ihl (hf.child (by simp [children])) fun i hi => h i (by simp [Node.contains, hi]),
      ihr (hf.child (by simp [children])) fun i hi => h i (by simp [Node.contains, hi])⟩

/-- An expression without caches that uses `K` does not contain cache identifiers. -/
theorem contains_of_uses {K : Caches F Γ} {e : Node F} {τ : BTy} (d : FnImpl Γ e τ)
    (hf : CacheFree e) (h : FnImpl.Uses K d) (i : Id) (hi : e.contains i = true) : K i = none := by
  induction d with
  | var j =>
    have hi : j = i := by simpa [Node.contains] using hi
    exact hi ▸ h
  | varAdj j t k hr =>
    have hi : j = i ∨ t = i := by simpa [Node.contains] using hi
    rcases hi with hi | hi
    · exact hi ▸ h.1
    · exact hi ▸ h.2
  | const | constSpec => simp [Node.contains] at hi
  | constAdj d t k ih =>
    rcases Bool.or_eq_true_iff.1 hi with hi | hi
    · exact ih (hf.child (by simp [children])) h.1 hi
    · have hi : t = i := by simpa using hi
      exact hi ▸ h.2
  | cached i d ih => exact absurd (SubExpr.refl _) (hf _ _)
  | sum d ih | un op d ih => exact ih (hf.child (by simp [children])) h hi
  | add dl dr z ihl ihr | sub dl dr z ihl ihr | mul dl dr z ihl ihr | div dl dr z ihl ihr
  | power dl dr ihl ihr | contract dl dr z ihl ihr =>
    rcases Bool.or_eq_true_iff.1 hi with hi | hi
    · exact ihl (hf.child (by simp [children])) h.1 hi
    · exact ihr (hf.child (by simp [children])) h.2 hi

/-- Without caches inside, `strip` does nothing. -/
theorem strip_fn [Zero F] [One F] [Add F] [Sub F] [Mul F] [Div F] [Neg F] [ScalarFns F]
    {e : Node F} {τ : BTy} (d : FnImpl Γ e τ) (hf : CacheFree e) :
    (FnImpl.strip d).fn = d.fn := by
  induction d with
  | var | varAdj | const | constSpec => rfl
  | cached i d ih => exact absurd (SubExpr.refl _) (hf _ _)
  | constAdj d t k ih | sum d ih | un op d ih =>
    simp only [FnImpl.strip, FnImpl.fn, ih (hf.child (by simp [children]))]
  | add dl dr z ihl ihr | sub dl dr z ihl ihr | mul dl dr z ihl ihr | div dl dr z ihl ihr
  | power dl dr ihl ihr | contract dl dr z ihl ihr =>
    simp only [FnImpl.strip, FnImpl.fn, ihl (hf.child (by simp [children])),
      ihr (hf.child (by simp [children]))]

/-- The value of an outcome. -/
def Res.toOption {ε : Type} : Res ε α → Option α
  | .ok a => some a
  | _ => none

theorem Res.toOption_eq {ε : Type} (r : Res ε α) (a : α) : r.toOption = some a ↔ r = .ok a := by
  cases r <;> simp [Res.toOption]

section
variable [Zero F] [One F] [Add F] [Sub F] [Mul F] [Div F] [Neg F] [ScalarFns F]

/-- Evaluation on buffers, without caches and compression. -/
def FnImpl.denote : {e : Node F} → {τ : BTy} → FnImpl Γ e τ → Ctx F Γ → Option (Buf F τ)
  | _, _, .var i, c => c i
  | _, _, .varAdj i t k _, c => (c i).bind fun x => (c t).bind fun y =>
      ((varAdjSpec i t k (Buf.shape _ x) (Buf.shape _ y)).toOption).map BSpec.unwrap
  | _, _, .const _ b, _ => some b
  | _, _, .constSpec _ s, _ => some s.unwrap
  | _, _, .constAdj d t k, c => (d.fn.evaluateShape c).1.toOption.bind fun s =>
      (c t).map fun y => Buf.full _ (k.shape s (Buf.shape _ y)) 0
  | _, _, .cached _ d, c => d.denote c
  | _, _, .add dl dr z, c => (dl.denote c).bind fun x => (dr.denote c).bind fun y =>
      (Res.ofExcept (Buf.zipMap z x y (· + ·))).toOption
  | _, _, .sub dl dr z, c => (dl.denote c).bind fun x => (dr.denote c).bind fun y =>
      (Res.ofExcept (Buf.zipMap z x y (· - ·))).toOption
  | _, _, .mul dl dr z, c => (dl.denote c).bind fun x => (dr.denote c).bind fun y =>
      (Res.ofExcept (Buf.zipMap z x y (· * ·))).toOption
  | _, _, .div dl dr z, c => (dl.denote c).bind fun x => (dr.denote c).bind fun y =>
      (Res.ofExcept (Buf.zipMap z x y (· / ·))).toOption
  | _, _, .power dl dr, c => (dl.denote c).bind fun x => (dr.denote c).bind fun y =>
      some (ScalarFns.pow x y : F)
  | _, _, .contract dl dr z, c => (dl.denote c).bind fun x => (dr.denote c).bind fun y =>
      (Buf.contract z x y).toOption
  | _, _, .sum d, c => (d.denote c).map (Buf.sum _)
  | _, _, .un op d, c => (d.denote c).map fun b => Buf.mutate _ b op.apply

/-- `c'` agrees with `c` except on cache entries. -/
def AgreeOff (K : Caches F Γ) (c c' : Ctx F Γ) : Prop := ∀ i, K i = none → c' i = c i

/-- Coherence in terms of `denote`. -/
def Coh (K : Caches F Γ) (c : Ctx F Γ) : Prop :=
  ∀ i n d v, K i = some ⟨n, d⟩ → c i = some v → FnImpl.denote d c = some v

theorem denote_local {K : Caches F Γ} {e : Node F} {τ : BTy} (d : FnImpl Γ e τ)
    (hu : FnImpl.Uses K d) (hs : FnImpl.CacheSafe d) {c c' : Ctx F Γ}
    (h : ∀ i, K i = none → e.contains i = true → c' i = c i) : d.denote c' = d.denote c := by
  induction d with
  | var i => exact h i hu (by simp [Node.contains])
  | varAdj i t k hr =>
    simp only [FnImpl.denote, h i hu.1 (by simp [Node.contains]), h t hu.2 (by simp [Node.contains])]
  | const | constSpec => rfl
  | constAdj d t k ih =>
    rename_i n _ _
    have h1 := ((d.local (P := fun i => n.contains i = true) (fun i hi => hi)).2.2 c' c
      (fun i hi => h i (contains_of_uses d hs.2 hu.1 i hi) (by simp [Node.contains, hi]))).1
    simp only [FnImpl.denote, h t hu.2 (by simp [Node.contains]), h1]
  | cached i d ih => exact ih hu.1 hs fun i hk hi => h i hk (by simp [Node.contains, hi])
  | sum d ih | un op d ih =>
    simp only [FnImpl.denote, ih hu hs fun i hk hi => h i hk (by simp [Node.contains, hi])]
  | add dl dr z ihl ihr | mul dl dr z ihl ihr | div dl dr z ihl ihr =>
    simp only [FnImpl.denote, ihl hu.1 hs.1 fun i hk hi => h i hk (by simp [Node.contains, hi]),
      ihr hu.2 hs.2 fun i hk hi => h i hk (by simp [Node.contains, hi])]
  | sub dl dr z ihl ihr | power dl dr ihl ihr | contract dl dr z ihl ihr =>
    simp only [FnImpl.denote, ihl hu.1 hs.1 fun i hk hi => h i hk (by simp [Node.contains, hi]),
      ihr hu.2 hs.2.1 fun i hk hi => h i hk (by simp [Node.contains, hi])]

theorem denote_congr {K : Caches F Γ} {e : Node F} {τ : BTy} (d : FnImpl Γ e τ)
    (hu : FnImpl.Uses K d) (hs : FnImpl.CacheSafe d) {c c' : Ctx F Γ} (h : AgreeOff K c c') :
    d.denote c' = d.denote c := denote_local d hu hs fun i hi _ => h i hi

theorem denote_strip {e : Node F} {τ : BTy} (d : FnImpl Γ e τ) (hs : FnImpl.CacheSafe d)
    (c : Ctx F Γ) : (FnImpl.strip d).denote c = d.denote c := by
  induction d with
  | var | varAdj | const | constSpec => rfl
  | constAdj d t k ih => simp only [FnImpl.strip, FnImpl.denote, strip_fn d hs.2]
  | cached i d ih => exact ih hs
  | sum d ih | un op d ih => simp only [FnImpl.strip, FnImpl.denote, ih hs]
  | add dl dr z ihl ihr | mul dl dr z ihl ihr | div dl dr z ihl ihr =>
    simp only [FnImpl.strip, FnImpl.denote, ihl hs.1, ihr hs.2]
  | sub dl dr z ihl ihr | power dl dr ihl ihr | contract dl dr z ihl ihr =>
    simp only [FnImpl.strip, FnImpl.denote, ihl hs.1, ihr hs.2.1]

/-- `m` keeps coherence and touches only cache entries. -/
def Keeps (K : Caches F Γ) (m : EvalM F Γ α) : Prop :=
  ∀ c, Coh K c → Coh K (m c).2 ∧ AgreeOff K c (m c).2

namespace Keeps
variable {K : Caches F Γ}

theorem map {m : EvalM F Γ α} (h : Keeps K m) (f : α → β) : Keeps K (m.map f) := fun c hc => h c hc

theorem mapErr {m : EvalM F Γ α} (h : Keeps K m) (f : EvalErr → EvalErr) : Keeps K (m.mapErr f) :=
  fun c hc => h c hc

theorem lift (r : Res EvalErr α) : Keeps K (EvalM.lift r : EvalM F Γ α) :=
  fun _ hc => ⟨hc, fun _ _ => rfl⟩

theorem read (i : Id) : Keeps K (EvalM.read i : EvalM F Γ _) := by
  intro c hc
  simp only [EvalM.read]
  split <;> exact ⟨hc, fun _ _ => rfl⟩

theorem bind {m : EvalM F Γ α} {f : α → EvalM F Γ β} (h : Keeps K m) (hf : ∀ a, Keeps K (f a)) :
    Keeps K (m.bind f) := by
  intro c hc
  have h1 := h c hc
  simp only [EvalM.bind]
  match hm : m c with
  | (.ok a, c') =>
    rw [hm] at h1
    have h2 := hf a c' h1.1
    exact ⟨h2.1, fun i hi => (h2.2 i hi).trans (h1.2 i hi)⟩
  | (.err e, c') => rw [hm] at h1; exact h1
  | (.panic, c') => rw [hm] at h1; exact h1

theorem binM {l : EvalM F Γ α} {r : EvalM F Γ β} (hl : Keeps K l) (hr : Keeps K r)
    (k : α → β → Res IncShapes γ) : Keeps K (binM l r k) :=
  (hl.mapErr _).bind fun _ => (hr.mapErr _).bind fun _ => .lift _

end Keeps

/-- With coherent caches, the successful outcomes of `m` are the values of `f`. -/
def Sem (K : Caches F Γ) (m : EvalM F Γ α) (f : Ctx F Γ → Option α) : Prop :=
  ∀ c, Coh K c → ∀ v, (m c).1 = .ok v ↔ f c = some v

theorem Sem.binM {K : Caches F Γ} {α' β' γ' : Type} {l : EvalM F Γ α} {r : EvalM F Γ β}
    {k : α → β → Res IncShapes γ} {u : α → α'} {v : β → β'} {w : γ → γ'}
    {f : Ctx F Γ → Option α'} {g : Ctx F Γ → Option β'} {h : α' → β' → Option γ'}
    (hl : Sem K (l.map u) f) (hr : Sem K (r.map v) g) (hkl : Keeps K l)
    (hg : ∀ c c', AgreeOff K c c' → g c' = g c) (q : α → Prop)
    (hq : ∀ c x, (l c).1 = .ok x → q x)
    (hk : ∀ x y z, q x → (((k x y).map w = .ok z) ↔ h (u x) (v y) = some z)) :
    Sem K ((Aegir.binM l r k).map w) (fun c => (f c).bind fun x => (g c).bind fun y => h x y) := by
  intro c hc z
  have h1 := hl c hc
  have h2 := hkl c hc
  have h3 := hr (l c).2 h2.1
  rw [hg _ _ h2.2] at h3
  have hqc := hq c
  simp only [EvalM.map, Aegir.binM, EvalM.bind, EvalM.mapErr, EvalM.lift] at h1 h3 ⊢
  rcases hm : l c with ⟨x | e | _, c1⟩
  · rw [hm] at h1 h3 hqc
    simp only [Res.mapErr_ok, Res.map_ok, Res.ok.injEq] at h1 h3 hqc ⊢
    rw [(h1 (u x)).1 rfl, Option.bind_some]
    rcases hm' : r c1 with ⟨y | e | _, c2⟩
    · rw [hm'] at h3
      simp only [Res.mapErr_ok, Res.map_ok, Res.ok.injEq] at h3 ⊢
      rw [(h3 (v y)).1 rfl, Option.bind_some, ← hk x y z (hqc x rfl)]
      cases k x y <;> simp
    · rw [hm'] at h3
      have h3 : g c = none := by
        cases hg : g c with
        | none => rfl
        | some y => exact absurd ((h3 y).2 hg) (by simp)
      simp [h3]
    · rw [hm'] at h3
      have h3 : g c = none := by
        cases hg : g c with
        | none => rfl
        | some y => exact absurd ((h3 y).2 hg) (by simp)
      simp [h3]
  · rw [hm] at h1
    have h1 : f c = none := by
      cases hg : f c with
      | none => rfl
      | some y => exact absurd ((h1 y).2 hg) (by simp)
    simp [h1]
  · rw [hm] at h1
    have h1 : f c = none := by
      cases hg : f c with
      | none => rfl
      | some y => exact absurd ((h1 y).2 hg) (by simp)
    simp [h1]

omit [One F] [Add F] [Sub F] [Mul F] [Div F] [Neg F] [ScalarFns F] in
theorem SameOk.toOption {c : BTy} {r : Res IncShapes (BSpec F c)} {m : Except IncShapes (Buf F c)}
    (h : SameOk r m) (v : Buf F c) :
    r.map BSpec.unwrap = .ok v ↔ (Res.ofExcept m).toOption = some v := by
  rw [Res.toOption_eq, Res.ofExcept_ok_iff, ← h v, Res.map_ok_iff]

omit [Zero F] [One F] [Add F] [Sub F] [Mul F] [Div F] [Neg F] [ScalarFns F] in
theorem evalExplicit_of (e : Node F) (h : Explicit e) : EvalExplicit e := by
  induction e with
  | var | const | div | cached => trivial
  | varAdj | constSpec | constAdj | contract => exact h
  | sum n ih | un op n ih => exact ih h
  | add l r ihl ihr | sub l r ihl ihr => exact h.imp ihl ihr
  | mul l r ihl ihr | power l r ihl ihr => exact ⟨ihl h.1, ihr h.2⟩

/-- Explicit expressions evaluate to explicit buffers. -/
theorem raw_of_explicit {e : Node F} {τ : BTy} (d : FnImpl Γ e τ) (he : EvalExplicit e) (c : Ctx F Γ)
    (s : BSpec F τ) (h : (d.fn.evaluateSpec c).1 = .ok s) : ∃ b, s = .raw b := by
  have zg : ∀ {a b c : BTy} (z : ZipImpl a b c) (f : F → F → F) x y s,
      zipGeneral z f x y = .ok s → ∃ v : Buf F c, s = .raw v := by
    intro a b c z f x y s h
    obtain ⟨v, _, hv⟩ := (Res.map_ok_iff _ _ _).1 h
    exact ⟨v, hv.symm⟩
  have zm : ∀ {c : BTy} (m : Except IncShapes (Buf F c)) (s : BSpec F c),
      Res.ofExcept (m.map .raw) = .ok s → ∃ v : Buf F c, s = .raw v := by
    intro c m s h
    cases m with
    | ok v => exact ⟨v, (Res.ok.inj h).symm⟩
    | error e => cases h
  have bin : ∀ {α β γ : Type} (l : EvalM F Γ α) (r : EvalM F Γ β) (k : α → β → Res IncShapes γ) c v,
      (binM l r k c).1 = .ok v →
        ∃ x y c', (l c).1 = .ok x ∧ (r c').1 = .ok y ∧ k x y = .ok v := by
    intro α β γ l r k c v h
    obtain ⟨x, c1, y, h1, h2, h3⟩ := (binM_ok_iff l r k c (binM l r k c).2 v).1 (Prod.ext h rfl)
    exact ⟨x, y, c1, by rw [h1], by rw [h2], h3⟩
  induction d generalizing c with
  | var i | cached i d | div dl dr z =>
    obtain ⟨b, _, hb⟩ := (Res.map_ok_iff _ _ _).1 h
    exact ⟨b, hb.symm⟩
  | const τ b => exact ⟨b, (Res.ok.inj h).symm⟩
  | varAdj | constSpec | constAdj | contract => exact he.elim
  | power dl dr ihl ihr =>
    obtain ⟨x, y, c1, h1, h2, h3⟩ := bin _ _ _ _ _ h
    obtain ⟨x, rfl⟩ := ihl he.1 _ _ h1
    obtain ⟨y, rfl⟩ := ihr he.2 _ _ h2
    exact ⟨_, (Res.ok.inj h3).symm⟩
  | un op d ih =>
    obtain ⟨b, h1, hb⟩ := (Res.map_ok_iff _ _ _).1 h
    obtain ⟨b', rfl⟩ := ih he c b h1
    exact ⟨_, hb.symm⟩
  | sum d ih =>
    obtain ⟨b, c1, h1, h2⟩ := (EvalM.bind_ok_iff _ _ c _ s).1 (Prod.ext h rfl)
    obtain ⟨b', rfl⟩ := ih he c b (by rw [h1])
    exact ⟨_, (Res.ok.inj (congrArg Prod.fst h2)).symm⟩
  | add dl dr z ihl ihr =>
    obtain ⟨x, y, c1, h1, h2, h3⟩ := bin _ _ _ _ _ h
    rcases he with he | he
    · obtain ⟨x, rfl⟩ := ihl he _ _ h1
      cases y with
      | full sy fy =>
        simp only [addSpec] at h3
        split at h3
        · exact zm _ _ h3
        · exact zg _ _ _ _ _ h3
      | _ => exact zg _ _ _ _ _ h3
    · obtain ⟨y, rfl⟩ := ihr he _ _ h2
      cases x with
      | full sx fx =>
        simp only [addSpec] at h3
        split at h3
        · exact zm _ _ ((Res.mapErr_ok_iff _ _ _).1 h3)
        · exact zg _ _ _ _ _ h3
      | _ => exact zg _ _ _ _ _ h3
  | sub dl dr z ihl ihr =>
    obtain ⟨x, y, c1, h1, h2, h3⟩ := bin _ _ _ _ _ h
    rcases he with he | he
    · obtain ⟨x, rfl⟩ := ihl he _ _ h1
      cases y with
      | full sy fy =>
        simp only [subSpec] at h3
        split at h3
        · exact zm _ _ h3
        · exact zg _ _ _ _ _ h3
      | _ => exact zg _ _ _ _ _ h3
    · obtain ⟨y, rfl⟩ := ihr he _ _ h2
      cases x with
      | _ => exact zg _ _ _ _ _ h3
  | mul dl dr z ihl ihr =>
    obtain ⟨x, y, c1, h1, h2, h3⟩ := bin _ _ _ _ _ h
    obtain ⟨x, rfl⟩ := ihl he.1 _ _ h1
    obtain ⟨y, rfl⟩ := ihr he.2 _ _ h2
    exact zg _ _ _ _ _ h3

end

section
variable [CommRing F] [Div F] [ScalarFns F] [LawfulScalar F] [LawfulPow F]

omit [Div F] [LawfulScalar F] in
theorem powSpec_raw (x : F) (y : BSpec F .scalar) :
    (powSpec (.raw x) y).unwrap = (ScalarFns.pow x y.unwrap : F) := by
  cases y with
  | full s v =>
    simp only [powSpec]
    split
    · rename_i h
      rw [LawfulPow.eqb_iff] at h
      subst h
      exact (LawfulPow.pow_zero x).symm
    · rfl
  | _ => rfl

theorem not_swaps {a b c : BTy} (z : ZipImpl a b c)
    (h : ¬ (a = .scalar ∧ ∃ ds, b = .array ds ∧ 2 ≤ ds.length)) : z.swaps = false := by
  cases z with
  | sa ds =>
    simp only [ZipImpl.swaps, decide_eq_false_iff_not]
    exact fun h2 => h ⟨rfl, ds, rfl, h2⟩
  | _ => rfl

omit [LawfulScalar F] [LawfulPow F] in
theorem coh_write {K : Caches F Γ} (hK : K.Consistent) {c : Ctx F Γ} (hc : Coh K c) {i : Id}
    {n : Node F} {d : FnImpl Γ n (Γ i)} (hi : K i = some ⟨n, d⟩) {v : Buf F (Γ i)}
    (hv : d.denote c = some v) : Coh K (c.write i v) ∧ AgreeOff K c (c.write i v) := by
  have ha : AgreeOff K c (c.write i v) := by
    intro j hj
    have : j ≠ i := by rintro rfl; rw [hi] at hj; cases hj
    simp [Ctx.write, this]
  refine ⟨?_, ha⟩
  intro j n' d' v' hj hv'
  rw [denote_congr d' (hK j n' d' hj).1 (hK j n' d' hj).2 ha]
  by_cases hji : j = i
  · subst hji
    rw [hi] at hj
    cases hj
    have : v = v' := by simpa [Ctx.write] using hv'
    exact this ▸ hv
  · exact hc j n' d' v' hj (by simpa [Ctx.write, hji] using hv')

/-- Evaluation with coherent caches keeps them coherent and agrees with `denote`. -/
theorem FnImpl.sem {K : Caches F Γ} (hK : K.Consistent) {e : Node F} {τ : BTy} (d : FnImpl Γ e τ)
    (hu : FnImpl.Uses K d) (hs : FnImpl.CacheSafe d) :
    Sem K (d.fn.evaluateSpec.map BSpec.unwrap) d.denote ∧ Keeps K d.fn.evaluateSpec ∧
      Keeps K d.fn.evaluateShape := by
  have ofEval : ∀ {e : Node F} {τ : BTy} {d : FnImpl Γ e τ},
      Sem K (d.fn.evaluateSpec.map BSpec.unwrap) d.denote → Keeps K d.fn.evaluateSpec →
      Sem K d.fn.evaluate d.denote ∧ Keeps K d.fn.evaluate := by
    intro e τ d h1 h2
    rw [FnImpl.evaluate_eq]
    exact ⟨h1, h2.map _⟩
  induction d with
  | var i =>
    refine ⟨?_, (Keeps.read _).map _, (Keeps.read _).map _⟩
    intro c hc v
    show ((((EvalM.read i c).1).map BSpec.raw).map BSpec.unwrap = .ok v) ↔ c i = some v
    simp only [EvalM.read]
    cases c i <;> simp [BSpec.unwrap]
  | varAdj i t k hr =>
    have key : ∀ {α : Type} (f : Shp (Γ i) → Shp (Γ t) → Res EvalErr α), Keeps K
        ((((EvalM.read i).map (Buf.shape _)).mapErr EvalErr.left).bind fun si =>
          (((EvalM.read t).map (Buf.shape _)).mapErr EvalErr.right).bind fun st =>
            (EvalM.lift (f si st) : EvalM F Γ α)) := fun f =>
      (((Keeps.read i).map _).mapErr _).bind fun _ => (((Keeps.read t).map _).mapErr _).bind
        fun _ => .lift _
    refine ⟨?_, key _, key _⟩
    intro c hc v
    simp only [FnImpl.fn, Fn.ofSpec, FnImpl.denote, EvalM.map, EvalM.bind, EvalM.mapErr, EvalM.lift,
      EvalM.read]
    cases hi : c i with
    | none => simp
    | some x =>
      cases ht : c t with
      | none => simp [ht]
      | some y =>
        simp only [ht, Res.map_ok, Res.mapErr_ok, Option.bind_some]
        cases (varAdjSpec i t k (Buf.shape _ x) (Buf.shape _ y) : Res EvalErr (BSpec F _)) <;>
          simp [Res.toOption]
  | const τ b =>
    refine ⟨?_, .lift _, .lift _⟩
    intro c hc v
    simp [FnImpl.fn, Fn.ofSpec, FnImpl.denote, EvalM.map, EvalM.lift, BSpec.unwrap]
  | constSpec τ s =>
    refine ⟨?_, .lift _, .lift _⟩
    intro c hc v
    simp [FnImpl.fn, Fn.ofSpec, FnImpl.denote, EvalM.map, EvalM.lift]
  | constAdj d t k ih =>
    obtain ⟨_, _, ih3⟩ := ih hu.1 hs.1
    have key := (ih3.mapErr EvalErr.left).bind (f := fun sn =>
        (((EvalM.read t).map (Buf.shape _)).mapErr EvalErr.right).bind fun st =>
          EvalM.lift (.ok (k.shape sn st)))
      fun _ => (((Keeps.read t).map _).mapErr _).bind fun _ => .lift _
    refine ⟨?_, key.map _, key⟩
    intro c hc v
    have hctx := (d.ctx_eq hs.2 c).2.2
    simp only [FnImpl.fn, Fn.ofSpec, FnImpl.denote, EvalM.map, EvalM.bind, EvalM.mapErr, EvalM.lift,
      EvalM.read]
    rcases hd : d.fn.evaluateShape c with ⟨s | e | _, c1⟩
    · rw [hd] at hctx
      cases (show c1 = c from hctx)
      cases ht : c t with
      | none => simp [ht, Res.toOption]
      | some y => simp [ht, Res.toOption, BSpec.unwrap]
    · simp [Res.toOption]
    · simp [Res.toOption]
  | cached i d ih =>
    obtain ⟨ih1, ih2, _⟩ := ih hu.1 hs
    obtain ⟨e1, e2⟩ := ofEval ih1 ih2
    have key : Sem K (FnImpl.cached i d).fn.evaluate (FnImpl.cached i d).denote ∧
        Keeps K (FnImpl.cached i d).fn.evaluate := by
      constructor
      · intro c hc v
        have h1 := e1 c hc
        show _ ↔ d.denote c = some v
        simp only [FnImpl.fn]
        cases hi : c i with
        | some w =>
          simp [hc i _ d w hu.2 hi]
        | none =>
          simp only []
          rw [← h1 v]
          rcases d.fn.evaluate c with ⟨x | e | _, c1⟩ <;> simp
      · intro c hc
        simp only [FnImpl.fn]
        cases hi : c i with
        | some w => exact ⟨hc, fun _ _ => rfl⟩
        | none =>
          simp only []
          have h1 := e1 c hc
          have h2 := e2 c hc
          rcases hd : d.fn.evaluate c with ⟨x | e | _, c1⟩
          · rw [hd] at h1 h2
            have hx : d.denote c1 = some x := by
              rw [denote_congr d hu.1 hs h2.2]; exact (h1 x).1 rfl
            have h3 := coh_write hK h2.1 hu.2 hx
            exact ⟨h3.1, fun j hj => (h3.2 j hj).trans (h2.2 j hj)⟩
          · rw [hd] at h2; exact h2
          · rw [hd] at h2; exact h2
    refine ⟨?_, key.2.map _, key.2.map _⟩
    have : (FnImpl.cached i d).fn.evaluateSpec.map BSpec.unwrap = (FnImpl.cached i d).fn.evaluate :=
      (EvalM.map_map _ _ _).trans (EvalM.map_id' _)
    rw [this]; exact key.1
  | add dl dr z ihl ihr =>
    obtain ⟨l1, l2, l3⟩ := ihl hu.1 hs.1
    obtain ⟨r1, r2, r3⟩ := ihr hu.2 hs.2
    exact ⟨Sem.binM l1 r1 l2 (fun c c' h => denote_congr dr hu.2 hs.2 h) (fun _ => True)
      (fun _ _ _ => trivial) (fun x y v _ => (addSpec_sameOk z x y).toOption v),
      l2.binM r2 _, l3.binM r3 _⟩
  | sub dl dr z ihl ihr =>
    obtain ⟨l1, l2, l3⟩ := ihl hu.1 hs.1
    obtain ⟨r1, r2, r3⟩ := ihr hu.2 hs.2.1
    exact ⟨Sem.binM l1 r1 l2 (fun c c' h => denote_congr dr hu.2 hs.2.1 h) (fun _ => True)
      (fun _ _ _ => trivial)
      (fun x y v _ => (subSpec_sameOk z (not_swaps z hs.2.2) x y).toOption v),
      l2.binM r2 _, l3.binM r3 _⟩
  | mul dl dr z ihl ihr =>
    obtain ⟨l1, l2, l3⟩ := ihl hu.1 hs.1
    obtain ⟨r1, r2, r3⟩ := ihr hu.2 hs.2
    exact ⟨Sem.binM l1 r1 l2 (fun c c' h => denote_congr dr hu.2 hs.2 h) (fun _ => True)
      (fun _ _ _ => trivial) (fun x y v _ => (mulSpec_sameOk z x y).toOption v),
      l2.binM r2 _, l3.binM r3 _⟩
  | div dl dr z ihl ihr =>
    obtain ⟨l1, l2, l3⟩ := ihl hu.1 hs.1
    obtain ⟨r1, r2, r3⟩ := ihr hu.2 hs.2
    obtain ⟨el1, el2⟩ := ofEval l1 l2
    obtain ⟨er1, er2⟩ := ofEval r1 r2
    refine ⟨?_, (el2.binM er2 _).map _, l3.binM r3 _⟩
    have h := Sem.binM (u := fun x => x) (v := fun x => x) (w := fun x => x)
      (k := fun x y => Res.ofExcept (Buf.zipMapId z x y (· / ·)))
      (h := fun x y => (Res.ofExcept (Buf.zipMap z x y (· / ·))).toOption)
      (f := dl.denote) (g := dr.denote)
      (show Sem K (dl.fn.evaluate.map fun x => x) _ by rw [EvalM.map_id']; exact el1)
      (show Sem K (dr.fn.evaluate.map fun x => x) _ by rw [EvalM.map_id']; exact er1) el2
      (fun c c' h => denote_congr dr hu.2 hs.2 h) (fun _ => True) (fun _ _ _ => trivial)
      (fun x y v _ => by
        rw [Res.map_id', Res.toOption_eq, Buf.zipMapId_eq])
    rw [EvalM.map_id'] at h
    have : (FnImpl.div dl dr z).fn.evaluateSpec.map BSpec.unwrap = (FnImpl.div dl dr z).fn.evaluate :=
      (EvalM.map_map _ _ _).trans (EvalM.map_id' _)
    rw [this]; exact h
  | power dl dr ihl ihr =>
    obtain ⟨l1, l2, l3⟩ := ihl hu.1 hs.1
    obtain ⟨r1, r2, r3⟩ := ihr hu.2 hs.2.1
    refine ⟨Sem.binM l1 r1 l2 (fun c c' h => denote_congr dr hu.2 hs.2.1 h) (fun x => ∃ b, x = .raw b)
      (fun c x hx => raw_of_explicit dl (evalExplicit_of _ hs.2.2) c x hx) ?_, l2.binM r2 _, .lift _⟩
    rintro x y v ⟨b, rfl⟩
    simp only [Res.map_ok, Res.ok.injEq, Option.some.injEq]
    rw [powSpec_raw]; rfl
  | contract dl dr z ihl ihr =>
    obtain ⟨l1, l2, l3⟩ := ihl hu.1 hs.1
    obtain ⟨r1, r2, r3⟩ := ihr hu.2 hs.2.1
    have hz : z.inRange := inRange_of z hs.2.2.1 hs.2.2.2
    refine ⟨Sem.binM l1 r1 l2 (fun c c' h => denote_congr dr hu.2 hs.2.1 h) (fun _ => True)
      (fun _ _ _ => trivial) ?_, l2.binM r2 _, l3.binM r3 _⟩
    intro x y v _
    obtain ⟨s, h1, h2⟩ := contractSpec_eq z x y hz
    rw [h1, Res.toOption_eq, contract_eq z _ _ hz]
    simp only [Res.map_ok, h2, contractOut]
  | sum d ih =>
    obtain ⟨h1, h2, h3⟩ := ih hu hs
    refine ⟨?_, h2.bind fun _ => .lift _, .lift _⟩
    intro c hc v
    have e1 := (ofEval h1 h2).1 c hc
    rw [← FnImpl.evaluate_eq]
    show ((d.fn.evaluate c).1.map (Buf.sum _) = .ok v) ↔ (d.denote c).map (Buf.sum _) = some v
    rw [Res.map_ok_iff, Option.map_eq_some_iff]
    exact exists_congr fun x => and_congr_left fun _ => e1 x
  | un op d ih =>
    obtain ⟨h1, h2, h3⟩ := ih hu hs
    refine ⟨?_, h2.map _, h3⟩
    intro c hc v
    have e1 := (ofEval h1 h2).1 c hc
    rw [← FnImpl.evaluate_eq]
    show ((d.fn.evaluate c).1.map (fun b => Buf.mutate _ b op.apply) = .ok v) ↔
      (d.denote c).map (fun b => Buf.mutate _ b op.apply) = some v
    rw [Res.map_ok_iff, Option.map_eq_some_iff]
    exact exists_congr fun x => and_congr_left fun _ => e1 x

theorem coh_step {K : Caches F Γ} (hK : K.Consistent) {c c' : Ctx F Γ} (h : Coh K c)
    (hstep : CacheStep K c c') : Coh K c' := by
  cases hstep with
  | evaluate d hu hs =>
    show Coh K (d.fn.evaluate c).2
    rw [FnImpl.evaluate_eq]
    exact ((FnImpl.sem hK d hu hs).2.1 c h).1
  | evaluateSpec d hu hs => exact ((FnImpl.sem hK d hu hs).2.1 c h).1
  | evaluateShape d hu hs => exact ((FnImpl.sem hK d hu hs).2.2 c h).1
  | assign j hj hc hclear =>
    intro i n d v hi hv
    have hn : n.contains j = false := by
      by_contra hn
      rw [hclear i n d hi (by simpa using hn)] at hv
      cases hv
    have hij : i ≠ j := by rintro rfl; rw [hi] at hj; cases hj
    have hci := hc i hij (fun n' d' h' => by rw [hi] at h'; cases h'; exact hn)
    rw [hci] at hv
    rw [← h i n d v hi hv]
    refine denote_local d (hK i n d hi).1 (hK i n d hi).2 fun k hk hnk => ?_
    refine hc k ?_ (fun n' d' h' => by rw [hk] at h'; cases h')
    rintro rfl
    rw [hn] at hnk; cases hnk

/-- Evaluation without caches. -/
theorem strip_evaluate {e : Node F} {τ : BTy} (d : FnImpl Γ e τ) (hs : FnImpl.CacheSafe d)
    (c : Ctx F Γ) (v : Buf F τ) : (FnImpl.strip d).evaluate c = (.ok v, c) ↔ d.denote c = some v := by
  have h := (FnImpl.sem (K := fun _ => none) (fun _ _ _ h => by cases h) (FnImpl.strip d)
    (uses_of_cacheFree _ _ (uncached_cacheFree e) (fun _ _ => rfl)) (CacheSafe.strip d hs)).1 c
      (fun _ _ _ _ h => by cases h) v
  rw [denote_strip d hs, ← FnImpl.evaluate_eq] at h
  rw [← h]
  have hctx := ((FnImpl.strip d).ctx_eq (uncached_cacheFree e) c).1
  constructor
  · intro h'; exact congrArg Prod.fst h'
  · intro h'; exact Prod.ext h' hctx

theorem coherent_iff {K : Caches F Γ} (hK : K.Consistent) (c : Ctx F Γ) :
    K.Coherent c ↔ Coh K c := by
  constructor
  · intro h i n d v hi hv
    exact (strip_evaluate d (hK i n d hi).2 c v).1 (h i n d v hi hv)
  · intro h i n d v hi hv
    exact (strip_evaluate d (hK i n d hi).2 c v).2 (h i n d v hi hv)

end

end Aegir
