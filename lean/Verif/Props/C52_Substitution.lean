import Verif.Spec.Subst
import Verif.Props.C23_C27_Contexts
import Verif.Props.C26_Caching
import Verif.Props.C48_Typing
/-!
# C52: substitution

Replacing a variable by an expression is the same as binding the variable to the expression's value.
-/

namespace Aegir

open Spec

section
variable {F : Type} {Γ : Id → BTy}

/-- Substituting an expression of the variable's type preserves types. -/
theorem C52_type {i : Id} {n : Node F} (dn : FnImpl Γ n (Γ i)) {e : Node F} {τ : BTy}
    (d : FnImpl Γ e τ) : Nonempty (FnImpl Γ (subst i n e) τ) := by
  induction d with
  | var j =>
    unfold subst
    by_cases h : j = i
    · subst h; rw [if_pos rfl]; exact ⟨dn⟩
    · rw [if_neg h]; exact ⟨.var j⟩
  | varAdj j t k h => exact ⟨.varAdj j t k h⟩
  | const τ b => exact ⟨.const τ b⟩
  | constSpec τ s => exact ⟨.constSpec τ s⟩
  | constAdj d t k _ => exact ⟨.constAdj d t k⟩
  | cached j d ih => obtain ⟨d'⟩ := ih; exact ⟨.cached j d'⟩
  | add dl dr z ihl ihr => obtain ⟨a⟩ := ihl; obtain ⟨b⟩ := ihr; exact ⟨.add a b z⟩
  | sub dl dr z ihl ihr => obtain ⟨a⟩ := ihl; obtain ⟨b⟩ := ihr; exact ⟨.sub a b z⟩
  | mul dl dr z ihl ihr => obtain ⟨a⟩ := ihl; obtain ⟨b⟩ := ihr; exact ⟨.mul a b z⟩
  | div dl dr z ihl ihr => obtain ⟨a⟩ := ihl; obtain ⟨b⟩ := ihr; exact ⟨.div a b z⟩
  | power dl dr ihl ihr => obtain ⟨a⟩ := ihl; obtain ⟨b⟩ := ihr; exact ⟨.power a b⟩
  | contract dl dr z ihl ihr => obtain ⟨a⟩ := ihl; obtain ⟨b⟩ := ihr; exact ⟨.contract a b z⟩
  | sum d ih => obtain ⟨d'⟩ := ih; exact ⟨.sum d'⟩
  | un op d ih => obtain ⟨d'⟩ := ih; exact ⟨.un op d'⟩

/-- The identifiers of the result: those of `n` if `i` occurred, and those of `e` except `i`. -/
theorem C52_contains (i : Id) (n e : Node F) (hp : Plain i e) (x : Id) :
    (subst i n e).contains x = true ↔
      (e.contains x = true ∧ x ≠ i) ∨ (e.contains i = true ∧ n.contains x = true) := by
  induction e with
  | var j =>
    unfold subst
    by_cases h : j = i
    · subst h
      simp only [if_true, Node.contains, beq_iff_eq, beq_self_eq_true, true_and]
      constructor
      · exact .inr
      · rintro (⟨h1, h2⟩ | h)
        exacts [absurd h1.symm h2, h]
    · rw [if_neg h]
      simp only [Node.contains, beq_iff_eq, h, false_and, or_false]
      exact ⟨fun hx => ⟨hx, fun hi => h (hx.trans hi)⟩, fun hx => hx.1⟩
  | varAdj j t =>
    have h1 : j ≠ i := hp.1
    have h2 : t ≠ i := hp.2
    simp only [subst, Node.contains, Bool.or_eq_true, beq_iff_eq, h1, h2, or_self, false_and, or_false]
    refine ⟨fun h => ⟨h, ?_⟩, fun h => h.1⟩
    rintro rfl
    exact h.elim h1 h2
  | const | constSpec => simp [subst, Node.contains]
  | constAdj m t ih =>
    have h1 : m.contains i = false := hp.1
    have h2 : t ≠ i := hp.2
    simp only [subst, Node.contains, Bool.or_eq_true, beq_iff_eq, h1, h2, or_self, false_and, or_false,
      Bool.false_eq_true]
    refine ⟨fun h => ⟨h, ?_⟩, fun h => h.1⟩
    rintro rfl
    rcases h with h | h
    · rw [h1] at h; cases h
    · exact h2 h
  | cached m j ih =>
    have hj : j ≠ i := hp.2
    simp only [subst, Node.contains, Bool.or_eq_true, beq_iff_eq, ih hp.1, hj.symm, false_or]
    constructor
    · rintro (rfl | h | h)
      exacts [.inl ⟨.inl rfl, hj⟩, .inl ⟨.inr h.1, h.2⟩, .inr h]
    · rintro (⟨rfl | h, h2⟩ | h)
      exacts [.inl rfl, .inr (.inl ⟨h, h2⟩), .inr (.inr h)]
  | add l r ihl ihr | sub l r ihl ihr | mul l r ihl ihr | div l r ihl ihr | power l r ihl ihr
  | contract k l r ihl ihr =>
    have hl := ihl hp.1
    have hr := ihr hp.2
    simp only [subst, Node.contains, Bool.or_eq_true, hl, hr]
    clear ihl ihr hp hl hr
    tauto
  | sum m ih | un op m ih => simpa only [subst, Node.contains] using ih hp

end

section
variable {F : Type} [CommRing F] [Div F] [ScalarFns F] {Γ : Id → BTy}

/-- `i` is the cache of `dn`. -/
private def oneCache (i : Id) {n : Node F} (dn : FnImpl Γ n (Γ i)) : Caches F Γ := fun j =>
  if h : j = i then some ⟨n, h ▸ dn⟩ else none

omit [CommRing F] [Div F] [ScalarFns F] in
private theorem uses_of_free {i : Id} {n : Node F} (dn : FnImpl Γ n (Γ i)) {e : Node F} {τ : BTy}
    (d : FnImpl Γ e τ) (hf : CacheFree e) (hi : e.contains i = false) :
    FnImpl.Uses (oneCache i dn) d := by
  have sub : ∀ {e e' : Node F}, CacheFree e → e' ∈ children e → CacheFree e' :=
    fun h hc m j hs => h m j (.step hc hs)
  induction d with
  | var j =>
    have : j ≠ i := by simpa [Node.contains] using hi
    simp [FnImpl.Uses, oneCache, this]
  | varAdj j t k h =>
    simp only [Node.contains, Bool.or_eq_false_iff, beq_eq_false_iff_ne] at hi
    simp [FnImpl.Uses, oneCache, hi.1, hi.2]
  | const | constSpec => trivial
  | constAdj d t k ih =>
    simp only [Node.contains, Bool.or_eq_false_iff, beq_eq_false_iff_ne] at hi
    exact ⟨ih (sub hf (by simp [children])) hi.1, by simp [oneCache, hi.2]⟩
  | cached j d ih => exact absurd (.refl _) (hf _ _)
  | add dl dr z ihl ihr | sub dl dr z ihl ihr | mul dl dr z ihl ihr | div dl dr z ihl ihr
  | power dl dr ihl ihr | contract dl dr z ihl ihr =>
    simp only [Node.contains, Bool.or_eq_false_iff] at hi
    exact ⟨ihl (sub hf (by simp [children])) hi.1, ihr (sub hf (by simp [children])) hi.2⟩
  | sum d ih | un op d ih => exact ih (sub hf (by simp [children])) hi

omit [CommRing F] [Div F] [ScalarFns F] in
private theorem explicit_subst (i : Id) (n e : Node F) :
    Explicit (subst i n e) ↔ Explicit (subst i (.cached n i) e) := by
  induction e with
  | var j =>
    unfold subst
    by_cases h : j = i
    · rw [if_pos h, if_pos h]; rfl
    · rw [if_neg h, if_neg h]
  | _ => simp_all [subst, Explicit]

omit [CommRing F] [Div F] [ScalarFns F] in
private theorem uncached_subst (i : Id) (n e : Node F) (hn : CacheFree n) (he : CacheFree e) :
    uncached (subst i (.cached n i) e) = subst i n e := by
  have sub : ∀ {e e' : Node F}, CacheFree e → e' ∈ children e → CacheFree e' :=
    fun h hc m j hs => h m j (.step hc hs)
  have free : ∀ e : Node F, CacheFree e → uncached e = e := by
    intro e he
    induction e with
    | var | varAdj | const | constSpec => rfl
    | constAdj m t ih | sum m ih | un op m ih =>
      simp only [uncached, ih (sub he (by simp [children]))]
    | cached m j ih => exact absurd (.refl _) (he _ _)
    | add l r ihl ihr | sub l r ihl ihr | mul l r ihl ihr | div l r ihl ihr | power l r ihl ihr
    | contract k l r ihl ihr =>
      simp only [uncached, ihl (sub he (by simp [children])), ihr (sub he (by simp [children]))]
  induction e with
  | var j =>
    unfold subst
    by_cases h : j = i
    · rw [if_pos h, if_pos h]; exact free n hn
    · rw [if_neg h, if_neg h]; rfl
  | varAdj | const | constSpec => rfl
  | constAdj m t ih =>
    simp only [subst, uncached, free m (sub he (by simp [children]))]
  | sum m ih | un op m ih => simp only [subst, uncached, ih (sub he (by simp [children]))]
  | cached m j ih => exact absurd (.refl _) (he _ _)
  | add l r ihl ihr | sub l r ihl ihr | mul l r ihl ihr | div l r ihl ihr | power l r ihl ihr
  | contract k l r ihl ihr =>
    simp only [subst, uncached, ihl (sub he (by simp [children])), ihr (sub he (by simp [children]))]

omit [CommRing F] [Div F] [ScalarFns F] in
private theorem binM_congr {α β γ : Type} {l l' : EvalM F Γ α} {r r' : EvalM F Γ β}
    {k : α → β → Res IncShapes γ} {c : Ctx F Γ} (hl : l c = l' c) (hc : (l' c).2 = c)
    (hr : r c = r' c) : binM l r k c = binM l' r' k c := by
  unfold binM EvalM.bind EvalM.mapErr
  simp only [hl]
  cases h : (l' c).1 with
  | ok x => simp only [Res.mapErr, hc, hr]
  | err x => simp only [Res.mapErr]
  | panic => simp only [Res.mapErr]

omit [CommRing F] [Div F] [ScalarFns F] in
private theorem map_congr {α β : Type} {l l' : EvalM F Γ α} {f : α → β} {c : Ctx F Γ}
    (hl : l c = l' c) : l.map f c = l'.map f c := by
  simp only [EvalM.map, hl]

omit [CommRing F] [Div F] [ScalarFns F] in
private theorem bind_congr {α β : Type} {l l' : EvalM F Γ α} {f : α → EvalM F Γ β} {c : Ctx F Γ}
    (hl : l c = l' c) : l.bind f c = l'.bind f c := by
  simp only [EvalM.bind, hl]

/-- Same outcomes in the context. -/
private def SameFn {τ : BTy} (f g : Fn F Γ τ) (c : Ctx F Γ) : Prop :=
  f.evaluate c = g.evaluate c ∧ f.evaluateSpec c = g.evaluateSpec c ∧
    f.evaluateShape c = g.evaluateShape c

omit [Div F] [ScalarFns F] in
private theorem sameFn_ofSpec {τ : BTy} {s s' : EvalM F Γ (BSpec F τ)} {t t' : EvalM F Γ (Shp τ)}
    {c : Ctx F Γ} (hs : s c = s' c) (ht : t c = t' c) :
    SameFn (Fn.ofSpec s t) (Fn.ofSpec s' t') c := ⟨map_congr hs, hs, ht⟩

private theorem mid {i : Id} {n : Node F} (dn : FnImpl Γ n (Γ i)) (hn : CacheFree n)
    (hni : n.contains i = false) {e : Node F} {τ : BTy} (d : FnImpl Γ e τ) (he : CacheFree e)
    (hp : Plain i e) (ds : FnImpl Γ (subst i n e) τ) (hs : FnImpl.CacheSafe ds) :
    ∃ dm : FnImpl Γ (subst i (.cached n i) e) τ, FnImpl.Uses (oneCache i dn) dm ∧
      FnImpl.CacheSafe dm ∧ ∀ c v, c i = some v → SameFn dm.fn d.fn c := by
  have sub : ∀ {e e' : Node F}, CacheFree e → e' ∈ children e → CacheFree e' :=
    fun h hc m j hs => h m j (.step hc hs)
  induction d with
  | var j =>
    by_cases h : j = i
    · subst h
      have key : ∀ (m : Node F) (hm : m = n) (ds : FnImpl Γ m (Γ j)), FnImpl.CacheSafe ds →
          FnImpl.CacheSafe dn := by
        rintro m rfl ds hs
        rwa [C48_unique dn ds]
      have hsafe := key _ (if_pos rfl) ds hs
      have out : ∀ (m : Node F) (hm : m = .cached n j), ∃ dm : FnImpl Γ m (Γ j),
          FnImpl.Uses (oneCache j dn) dm ∧ FnImpl.CacheSafe dm ∧
          ∀ c v, c j = some v → SameFn dm.fn (FnImpl.var (F := F) (Γ := Γ) j).fn c := by
        rintro m rfl
        refine ⟨.cached j dn, ⟨uses_of_free dn dn hn hni, by simp [oneCache]⟩, hsafe, fun c v hv => ?_⟩
        simp [SameFn, FnImpl.fn, EvalM.read, EvalM.map, hv]
      exact out _ (if_pos rfl)
    · have out : ∀ (m : Node F) (hm : m = .var j), ∃ dm : FnImpl Γ m (Γ j),
          FnImpl.Uses (oneCache i dn) dm ∧ FnImpl.CacheSafe dm ∧
          ∀ c v, c i = some v → SameFn dm.fn (FnImpl.var (F := F) (Γ := Γ) j).fn c := by
        rintro m rfl
        exact ⟨.var j, by simp [FnImpl.Uses, oneCache, h], trivial, fun c v _ => ⟨rfl, rfl, rfl⟩⟩
      exact out _ (if_neg h)
  | varAdj j t k h =>
    exact ⟨.varAdj j t k h, by simp [FnImpl.Uses, oneCache, hp.1, hp.2], trivial,
      fun c v _ => ⟨rfl, rfl, rfl⟩⟩
  | const τ b => exact ⟨.const τ b, trivial, trivial, fun c v _ => ⟨rfl, rfl, rfl⟩⟩
  | constSpec τ s => exact ⟨.constSpec τ s, trivial, trivial, fun c v _ => ⟨rfl, rfl, rfl⟩⟩
  | constAdj d t k _ =>
    have hu : ds = .constAdj d t k := C48_unique _ _
    subst hu
    exact ⟨.constAdj d t k, ⟨uses_of_free dn d (sub he (by simp [children])) hp.1,
      by simp [oneCache, hp.2]⟩, hs, fun c v _ => ⟨rfl, rfl, rfl⟩⟩
  | cached j d ih => exact absurd (.refl _) (he _ _)
  | add dl dr z ihl ihr =>
    obtain ⟨al⟩ := C52_type dn dl
    obtain ⟨ar⟩ := C52_type dn dr
    have hu : ds = .add al ar z := C48_unique _ _
    subst hu
    have hel := sub he (e' := _) (List.mem_cons_self ..)
    have her := sub he (e' := _) (List.mem_cons_of_mem _ (List.mem_cons_self ..))
    obtain ⟨ml, ul, sl, fl⟩ := ihl hel hp.1 al hs.1
    obtain ⟨mr, ur, sr, fr⟩ := ihr her hp.2 ar hs.2
    refine ⟨.add ml mr z, ⟨ul, ur⟩, ⟨sl, sr⟩, fun c v hv => sameFn_ofSpec ?_ ?_⟩
    · exact binM_congr (fl c v hv).2.1 (dl.ctx_eq hel c).2.1 (fr c v hv).2.1
    · exact binM_congr (fl c v hv).2.2 (dl.ctx_eq hel c).2.2 (fr c v hv).2.2
  | sub dl dr z ihl ihr =>
    obtain ⟨al⟩ := C52_type dn dl
    obtain ⟨ar⟩ := C52_type dn dr
    have hu : ds = .sub al ar z := C48_unique _ _
    subst hu
    have hel := sub he (e' := _) (List.mem_cons_self ..)
    have her := sub he (e' := _) (List.mem_cons_of_mem _ (List.mem_cons_self ..))
    obtain ⟨ml, ul, sl, fl⟩ := ihl hel hp.1 al hs.1
    obtain ⟨mr, ur, sr, fr⟩ := ihr her hp.2 ar hs.2.1
    refine ⟨.sub ml mr z, ⟨ul, ur⟩, ⟨sl, sr, hs.2.2⟩, fun c v hv => sameFn_ofSpec ?_ ?_⟩
    · exact binM_congr (fl c v hv).2.1 (dl.ctx_eq hel c).2.1 (fr c v hv).2.1
    · exact binM_congr (fl c v hv).2.2 (dl.ctx_eq hel c).2.2 (fr c v hv).2.2
  | mul dl dr z ihl ihr =>
    obtain ⟨al⟩ := C52_type dn dl
    obtain ⟨ar⟩ := C52_type dn dr
    have hu : ds = .mul al ar z := C48_unique _ _
    subst hu
    have hel := sub he (e' := _) (List.mem_cons_self ..)
    have her := sub he (e' := _) (List.mem_cons_of_mem _ (List.mem_cons_self ..))
    obtain ⟨ml, ul, sl, fl⟩ := ihl hel hp.1 al hs.1
    obtain ⟨mr, ur, sr, fr⟩ := ihr her hp.2 ar hs.2
    refine ⟨.mul ml mr z, ⟨ul, ur⟩, ⟨sl, sr⟩, fun c v hv => sameFn_ofSpec ?_ ?_⟩
    · exact binM_congr (fl c v hv).2.1 (dl.ctx_eq hel c).2.1 (fr c v hv).2.1
    · exact binM_congr (fl c v hv).2.2 (dl.ctx_eq hel c).2.2 (fr c v hv).2.2
  | div dl dr z ihl ihr =>
    obtain ⟨al⟩ := C52_type dn dl
    obtain ⟨ar⟩ := C52_type dn dr
    have hu : ds = .div al ar z := C48_unique _ _
    subst hu
    have hel := sub he (e' := _) (List.mem_cons_self ..)
    have her := sub he (e' := _) (List.mem_cons_of_mem _ (List.mem_cons_self ..))
    obtain ⟨ml, ul, sl, fl⟩ := ihl hel hp.1 al hs.1
    obtain ⟨mr, ur, sr, fr⟩ := ihr her hp.2 ar hs.2
    refine ⟨.div ml mr z, ⟨ul, ur⟩, ⟨sl, sr⟩, fun c v hv => ?_⟩
    have h1 := binM_congr (k := fun x y => Res.ofExcept (Buf.zipMapId z x y (· / ·)))
      (fl c v hv).1 (dl.ctx_eq hel c).1 (fr c v hv).1
    exact ⟨h1, map_congr h1,
      binM_congr (fl c v hv).2.2 (dl.ctx_eq hel c).2.2 (fr c v hv).2.2⟩
  | power dl dr ihl ihr =>
    obtain ⟨al⟩ := C52_type dn dl
    obtain ⟨ar⟩ := C52_type dn dr
    have hu : ds = .power al ar := C48_unique _ _
    subst hu
    have hel := sub he (e' := _) (List.mem_cons_self ..)
    have her := sub he (e' := _) (List.mem_cons_of_mem _ (List.mem_cons_self ..))
    obtain ⟨ml, ul, sl, fl⟩ := ihl hel hp.1 al hs.1
    obtain ⟨mr, ur, sr, fr⟩ := ihr her hp.2 ar hs.2.1
    refine ⟨.power ml mr, ⟨ul, ur⟩, ⟨sl, sr, (explicit_subst _ _ _).1 hs.2.2⟩,
      fun c v hv => sameFn_ofSpec ?_ rfl⟩
    exact binM_congr (fl c v hv).2.1 (dl.ctx_eq hel c).2.1 (fr c v hv).2.1
  | contract dl dr z ihl ihr =>
    obtain ⟨al⟩ := C52_type dn dl
    obtain ⟨ar⟩ := C52_type dn dr
    have hu : ds = .contract al ar z := C48_unique _ _
    subst hu
    have hel := sub he (e' := _) (List.mem_cons_self ..)
    have her := sub he (e' := _) (List.mem_cons_of_mem _ (List.mem_cons_self ..))
    obtain ⟨ml, ul, sl, fl⟩ := ihl hel hp.1 al hs.1
    obtain ⟨mr, ur, sr, fr⟩ := ihr her hp.2 ar hs.2.1
    refine ⟨.contract ml mr z, ⟨ul, ur⟩, ⟨sl, sr, hs.2.2⟩, fun c v hv => sameFn_ofSpec ?_ ?_⟩
    · exact binM_congr (fl c v hv).2.1 (dl.ctx_eq hel c).2.1 (fr c v hv).2.1
    · exact binM_congr (fl c v hv).2.2 (dl.ctx_eq hel c).2.2 (fr c v hv).2.2
  | sum d ih =>
    obtain ⟨a⟩ := C52_type dn d
    have hu : ds = .sum a := C48_unique _ _
    subst hu
    obtain ⟨m, u, s, f⟩ := ih (sub he (List.mem_cons_self ..)) hp a hs
    exact ⟨.sum m, u, s, fun c v hv => ⟨map_congr (f c v hv).1, bind_congr (f c v hv).2.1, rfl⟩⟩
  | un op d ih =>
    obtain ⟨a⟩ := C52_type dn d
    have hu : ds = .un op a := C48_unique _ _
    subst hu
    obtain ⟨m, u, s, f⟩ := ih (sub he (List.mem_cons_self ..)) hp a hs
    exact ⟨.un op m, u, s,
      fun c v hv => ⟨map_congr (f c v hv).1, map_congr (f c v hv).2.1, (f c v hv).2.2⟩⟩

variable [LawfulScalar F] [LawfulPow F]

/-- If `n` evaluates to `v`, then `e` with `n` in place of the variable `i` evaluates to `w` exactly
if `e` does when `i` is bound to `v`. Missing: adjoints that mention `i`, and
operators that treat compressed operands differently (`CacheSafe`, see `C52_violation`). -/
theorem C52_subst_partial {i : Id} {n e : Node F} {τ : BTy} (dn : FnImpl Γ n (Γ i))
    (d : FnImpl Γ e τ) (ds : FnImpl Γ (subst i n e) τ) (hn : CacheFree n) (he : CacheFree e)
    (hni : n.contains i = false) (hp : Plain i e) (hsn : FnImpl.CacheSafe dn)
    (hs : FnImpl.CacheSafe ds) (c : Ctx F Γ) (v : Buf F (Γ i)) (hv : (dn.evaluate c).1 = .ok v)
    (w : Buf F τ) :
    (ds.evaluate c).1 = .ok w ↔ (d.evaluate (c.write i v)).1 = .ok w := by
  obtain ⟨dm, hu, hsm, hf⟩ := mid dn hn hni d he hp ds hs
  have hci : (c.write i v) i = some v := by simp [Ctx.write]
  have hcj : ∀ j, j ≠ i → (c.write i v) j = c j := fun j hj => by simp [Ctx.write, hj]
  have hK : (oneCache i dn).Consistent := by
    intro j m dj hj
    unfold oneCache at hj
    split at hj
    · rename_i h
      subst h
      cases hj
      exact ⟨uses_of_free dn dn hn hni, hsn⟩
    · cases hj
  -- the value of `n` does not depend on the entry for `i`
  have hn1 : dn.evaluate (c.write i v) = (.ok v, c.write i v) := by
    refine Prod.ext ?_ (dn.ctx_eq hn _).1
    rw [← hv]
    exact (C24_local dn _ _ fun j hj => hcj j (by rintro rfl; rw [hni] at hj; cases hj)).1
  have hfree : uncached n = n := by
    have h1 := uncached_subst i n (.var i) hn (by
      intro m j h
      cases h with
      | step hc _ => simp [children] at hc)
    simpa [subst, uncached] using h1
  have hcoh : (oneCache i dn).Coherent (c.write i v) := by
    intro j m dj u hj hju
    unfold oneCache at hj
    split at hj
    · rename_i h
      subst h
      cases hj
      rw [hci] at hju
      have hvu : v = u := Option.some.inj hju
      have key : ∀ (m' : Node F) (hm : m' = n) (d' : FnImpl Γ m' (Γ j)),
          d'.evaluate (c.write j v) = (.ok u, c.write j v) := by
        rintro m' rfl d'
        rw [C48_unique d' dn, hn1, hvu]
      exact key _ hfree _
    · cases hj
  have h26 := (Props.C26_transparent_partial hK dm hu hsm (c.write i v) hcoh).1 w
  have hdm : dm.evaluate (c.write i v) = d.evaluate (c.write i v) := (hf _ v hci).1
  rw [← hdm, h26]
  have key : ∀ (m : Node F) (hm : m = subst i n e) (d' : FnImpl Γ m τ), CacheFree m →
      ((ds.evaluate c).1 = .ok w ↔ d'.evaluate (c.write i v) = (.ok w, c.write i v)) := by
    rintro m rfl d' hm
    rw [C48_unique d' ds]
    have hl : (ds.evaluate (c.write i v)).1 = (ds.evaluate c).1 :=
      (C24_local ds _ _ fun j hj => hcj j (by
        rintro rfl
        rcases (C52_contains j n e hp j).1 hj with h | h
        · exact h.2 rfl
        · rw [hni] at h; cases h.2)).1
    constructor
    · intro h
      exact Prod.ext (hl.trans h) (ds.ctx_eq hm _).1
    · intro h
      rw [← hl, h]
  refine key _ (uncached_subst i n e hn he) (FnImpl.strip dm) ?_
  have free : ∀ e : Node F, CacheFree (uncached e) := by
    intro e
    induction e with
    | cached m j ih => exact ih
    | _ =>
      intro m j h
      cases h with
      | step hc h => simp only [uncached, children, List.mem_cons, List.not_mem_nil, or_false] at hc <;>
          first
          | exact hc.elim
          | (subst hc; simp_all [CacheFree])
          | (rcases hc with rfl | rfl <;> simp_all [CacheFree])
  exact free _

end

/-! ### With caches -/

section
variable {F : Type} {Γ : Id → BTy}

theorem uncached_contains (e : Node F) (i : Id) (h : e.contains i = false) : (uncached e).contains i = false := by
  induction e with
  | var | varAdj | const | constSpec => exact h
  | constAdj m t ih =>
    simp only [uncached, Node.contains, Bool.or_eq_false_iff] at h ⊢
    exact ⟨ih h.1, h.2⟩
  | cached m j ih =>
    simp only [Node.contains, Bool.or_eq_false_iff] at h
    exact ih h.2
  | add l r ihl ihr | sub l r ihl ihr | mul l r ihl ihr | div l r ihl ihr | power l r ihl ihr
  | contract k l r ihl ihr =>
    simp only [uncached, Node.contains, Bool.or_eq_false_iff] at h ⊢
    exact ⟨ihl h.1, ihr h.2⟩
  | sum m ih | un op m ih => exact ih h

theorem plain_uncached (i : Id) (e : Node F) (h : Plain i e) : Plain i (uncached e) := by
  induction e with
  | var | varAdj | const | constSpec => exact h
  | constAdj m t ih => exact ⟨uncached_contains m i h.1, h.2⟩
  | cached m j ih => exact ih h.1
  | add l r ihl ihr | sub l r ihl ihr | mul l r ihl ihr | div l r ihl ihr | power l r ihl ihr
  | contract k l r ihl ihr => exact ⟨ihl h.1, ihr h.2⟩
  | sum m ih | un op m ih => exact ih h

theorem uncached_subst_comm (i : Id) (n e : Node F) :
    uncached (subst i n e) = subst i (uncached n) (uncached e) := by
  induction e with
  | var j =>
    simp only [subst, uncached]
    by_cases h : j = i
    · rw [if_pos h, if_pos h]
    · rw [if_neg h, if_neg h]; rfl
  | cached m j ih => exact ih
  | varAdj | const | constSpec | constAdj => rfl
  | _ => simp_all [subst, uncached]

theorem uncached_free (e : Node F) : CacheFree (uncached e) := by
  induction e with
  | cached m j ih => exact ih
  | _ =>
    intro m j h
    cases h with
    | step hc h => simp only [uncached, children, List.mem_cons, List.not_mem_nil, or_false] at hc <;>
        first
        | exact hc.elim
        | (subst hc; simp_all [CacheFree])
        | (rcases hc with rfl | rfl <;> simp_all [CacheFree])

end

section
variable {F : Type} [CommRing F] [Div F] [ScalarFns F] {Γ : Id → BTy} [LawfulScalar F] [LawfulPow F]

/-- The same with `Cached` nodes in either expression: `K` are the caches of `e`, and `L` those of the result, whose expressions
have `n` in place of `i`. Caches that hold a value hold the right one. -/
theorem C52_cached_partial {i : Id} {n e : Node F} {τ : BTy} {K L : Caches F Γ} (hK : K.Consistent) (hL : L.Consistent)
    (dn : FnImpl Γ n (Γ i)) (d : FnImpl Γ e τ) (ds : FnImpl Γ (subst i n e) τ)
    (hun : FnImpl.Uses L dn) (hud : FnImpl.Uses K d) (hus : FnImpl.Uses L ds)
    (hni : n.contains i = false) (hp : Plain i e) (hsn : FnImpl.CacheSafe dn) (hsd : FnImpl.CacheSafe d)
    (hs : FnImpl.CacheSafe ds) (c : Ctx F Γ) (v : Buf F (Γ i)) (hv : (dn.evaluate c).1 = .ok v)
    (hcL : L.Coherent c) (hcK : K.Coherent (c.write i v)) (w : Buf F τ) :
    (ds.evaluate c).1 = .ok w ↔ (d.evaluate (c.write i v)).1 = .ok w := by
  rw [(Props.C26_transparent_partial hL ds hus hs c hcL).1 w,
    (Props.C26_transparent_partial hK d hud hsd _ hcK).1 w]
  have hv' := ((Props.C26_transparent_partial hL dn hun hsn c hcL).1 v).1 hv
  have key : ∀ (m : Node F) (hm : m = subst i (uncached n) (uncached e)) (d' : FnImpl Γ m τ), FnImpl.CacheSafe d' →
      CacheFree m → (d'.evaluate c = (.ok w, c) ↔
        (FnImpl.strip d).evaluate (c.write i v) = (.ok w, c.write i v)) := by
    rintro m rfl d' hs' hf
    have h := C52_subst_partial (FnImpl.strip dn) (FnImpl.strip d) d' (uncached_free n) (uncached_free e)
      (uncached_contains n i hni) (plain_uncached i e hp) (CacheSafe.strip dn hsn) hs' c v (by rw [hv']) w
    constructor
    · intro h'
      exact Prod.ext (h.1 (by rw [h'])) (FnImpl.ctx_eq _ (uncached_free e) _).1
    · intro h'
      exact Prod.ext (h.2 (by rw [h'])) (FnImpl.ctx_eq _ hf _).1
  exact key _ (uncached_subst_comm i n e) (FnImpl.strip ds) (CacheSafe.strip ds hs) (uncached_free _)

end

/-! ### A concrete case: `x * y + y` with `x + 3` for `y` -/

private def c52Ty : Id → BTy := fun _ => .scalar

/-- `x = 4`, and `y` unset. -/
private def c52Ctx : Ctx ℤ c52Ty := fun i => if i = 0 then some (4 : ℤ) else none

private def c52N : Node ℤ := .add (.var 0) (.const .scalar (3 : ℤ))

private def c52E : Node ℤ := .add (.mul (.var 0) (.var 1)) (.var 1)

private def c52dn : FnImpl c52Ty c52N .scalar :=
  .add (.var (Γ := c52Ty) 0) (.const .scalar (3 : ℤ)) .ss

private def c52d : FnImpl c52Ty c52E .scalar :=
  .add (.mul (.var (Γ := c52Ty) 0) (.var (Γ := c52Ty) 1) .ss) (.var (Γ := c52Ty) 1) .ss

private def c52ds : FnImpl c52Ty (subst 1 c52N c52E) .scalar :=
  .add (.mul (.var (Γ := c52Ty) 0) c52dn .ss) c52dn .ss

private theorem c52_free : CacheFree c52N ∧ CacheFree c52E := by
  refine ⟨fun m j h => ?_, fun m j h => ?_⟩ <;>
  · rcases h with _ | ⟨hc, h⟩
    simp only [c52N, c52E, children, List.mem_cons, List.not_mem_nil, or_false] at hc
    rcases hc with rfl | rfl <;> rcases h with _ | ⟨hc, h⟩ <;>
      simp only [children, List.mem_cons, List.not_mem_nil, or_false] at hc
    all_goals rcases hc with rfl | rfl <;> rcases h with _ | ⟨hc, h⟩ <;> simp [children] at hc

/-- The hypotheses hold, and both sides are `4 * 7 + 7`. -/
example : (c52ds.evaluate c52Ctx).1 = .ok (35 : ℤ) :=
  (C52_subst_partial (i := 1) c52dn c52d c52ds c52_free.1 c52_free.2 rfl
    ⟨⟨trivial, trivial⟩, trivial⟩ ⟨trivial, trivial⟩
    ⟨⟨trivial, trivial, trivial⟩, trivial, trivial⟩ c52Ctx (7 : ℤ) rfl (35 : ℤ)).2 rfl

/-! The same with caches: `x * y` is stored under identifier `2`, and `x + 3` under `3`; both are empty. -/

private def c52Nc : Node ℤ := .cached c52N 3

private def c52Ec : Node ℤ := .add (.cached (.mul (.var 0) (.var 1)) 2) (.var 1)

private def c52dnc : FnImpl c52Ty c52Nc .scalar := .cached (Γ := c52Ty) 3 c52dn

private def c52xy : FnImpl (F := ℤ) c52Ty (.mul (.var 0) (.var 1)) .scalar :=
  .mul (.var (Γ := c52Ty) 0) (.var (Γ := c52Ty) 1) .ss

private def c52dc : FnImpl c52Ty c52Ec .scalar :=
  .add (.cached (Γ := c52Ty) 2 c52xy) (.var (Γ := c52Ty) 1) .ss

private def c52xn : FnImpl (F := ℤ) c52Ty (.mul (.var 0) c52Nc) .scalar := .mul (.var (Γ := c52Ty) 0) c52dnc .ss

private def c52dsc : FnImpl c52Ty (subst 1 c52Nc c52Ec) .scalar :=
  .add (.cached (Γ := c52Ty) 2 c52xn) c52dnc .ss

private def c52K : Caches ℤ c52Ty := fun j => if j = 2 then some ⟨_, c52xy⟩ else none

private def c52L : Caches ℤ c52Ty := fun j =>
  if j = 2 then some ⟨_, c52xn⟩ else if j = 3 then some ⟨_, c52dn⟩ else none

private theorem c52K_consistent : c52K.Consistent := fun j n d h => by
  simp only [c52K] at h
  split at h
  · cases h
    exact ⟨⟨rfl, rfl⟩, trivial, trivial⟩
  · cases h

private theorem c52L_consistent : c52L.Consistent := fun j n d h => by
  simp only [c52L] at h
  split at h
  · cases h
    exact ⟨⟨rfl, ⟨rfl, trivial⟩, rfl⟩, trivial, trivial, trivial⟩
  · split at h
    · cases h
      exact ⟨⟨rfl, trivial⟩, trivial, trivial⟩
    · cases h

example : (c52dsc.evaluate c52Ctx).1 = .ok (35 : ℤ) :=
  (C52_cached_partial (i := 1) c52K_consistent c52L_consistent c52dnc c52dc c52dsc
    ⟨⟨rfl, trivial⟩, rfl⟩ ⟨⟨⟨rfl, rfl⟩, rfl⟩, rfl⟩ ⟨⟨⟨rfl, ⟨rfl, trivial⟩, rfl⟩, rfl⟩, ⟨rfl, trivial⟩, rfl⟩ rfl
    ⟨⟨⟨trivial, trivial⟩, by decide⟩, trivial⟩ ⟨trivial, trivial⟩ ⟨⟨trivial, trivial⟩, trivial⟩
    ⟨⟨trivial, trivial, trivial⟩, trivial, trivial⟩ c52Ctx (7 : ℤ) rfl
    (Props.C26_empty _ fun j hj => by
      by_cases h2 : j = 2
      · rw [h2]; rfl
      · by_cases h3 : j = 3
        · rw [h3]; rfl
        · simp [c52L, h2, h3] at hj)
    (Props.C26_empty _ fun j hj => by
      by_cases h2 : j = 2
      · rw [h2]; rfl
      · simp [c52K, h2] at hj) (35 : ℤ)).2 rfl

example : (subst 1 c52N c52E).contains 0 = true :=
  (C52_contains 1 c52N c52E ⟨⟨trivial, trivial⟩, trivial⟩ 0).2 (.inl ⟨rfl, by decide⟩)

example : Nonempty (FnImpl c52Ty (subst 1 c52N c52E) .scalar) := C52_type (i := 1) c52dn c52d

/-- Without `CacheSafe` the claim is false: `y ^ x` with `y` bound to the value `0` of a compressed
constant is `1` at `x = 0`, and with the constant in place of `y` it is `0` (`binary.rs` L110-124). -/
theorem C52_violation :
    ∃ (n e : Node ℤ) (dn : FnImpl c52Ty n .scalar) (d : FnImpl c52Ty e .scalar)
      (ds : FnImpl c52Ty (subst 1 n e) .scalar) (c : Ctx ℤ c52Ty) (v : ℤ),
      Plain 1 e ∧ n.contains 1 = false ∧ (dn.evaluate c).1 = .ok v ∧
        (d.evaluate (c.write 1 v)).1 = .ok (1 : ℤ) ∧ (ds.evaluate c).1 = .ok (0 : ℤ) := by
  let z : FnImpl (F := ℤ) c52Ty (.constSpec .scalar (.full () 0)) .scalar :=
    .constSpec .scalar (.full () 0)
  exact ⟨_, .power (.var 1) (.var 0), z, .power (.var (Γ := c52Ty) 1) (.var (Γ := c52Ty) 0),
    .power z (.var (Γ := c52Ty) 0), fun i => if i = 0 then some (0 : ℤ) else none, 0,
    ⟨trivial, trivial⟩, rfl, rfl, rfl, rfl⟩

end Aegir
