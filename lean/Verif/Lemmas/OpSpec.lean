import Verif.Lemmas.Eval
/-!
# What the arms of `Add`, `Sub`, `Mul`, `Div`, `Power` and the contractions compute
-/

namespace Aegir

open Spec

variable {F A : Type}

/-- `u` is an entry of `b`. -/
def Buf.Entry {τ : BTy} (b : Buf F τ) (u : F) : Prop := ∃ ix, Buf.getU τ b ix = some u

theorem Buf.entry_full {τ : BTy} {s : Shp τ} {v u : F} (h : Buf.Entry (Buf.full τ s v) u) :
    u = v := by
  obtain ⟨ix, h⟩ := h
  have hb : InBounds (Buf.dims τ (Buf.full τ s v)) ix :=
    (Buf.getU_isSome_iff _ _ _).1 (by rw [h]; rfl)
  rw [Buf.dims_full] at hb
  rw [Buf.getU_full _ _ _ _ hb] at h
  exact (Option.some.inj h).symm

theorem zipMap_congr {a b c : BTy} (z : ZipImpl a b c) (x : Buf F a) (y : Buf F b)
    (f g : F → F → A) (h : ∀ u v, Buf.Entry x u → Buf.Entry y v → z.eff f u v = z.eff g u v) :
    Buf.zipMap z x y f = Buf.zipMap z x y g := by
  have h1 := Buf.broadcast_eq z x y f
  have h2 := Buf.broadcast_eq z x y g
  rw [h1] at h2
  cases hf : Buf.zipMap z x y f with
  | error e =>
    rw [hf] at h2
    cases hg : Buf.zipMap z x y g with
    | error e' => rw [hg] at h2; cases h2; rfl
    | ok r => rw [hg] at h2; cases h2
  | ok r =>
    rw [hf] at h2
    cases hg : Buf.zipMap z x y g with
    | error e' => rw [hg] at h2; cases h2
    | ok r' =>
      rw [hg] at h2
      have hs : Buf.shape c r = Buf.shape c r' := Except.ok.inj h2
      refine congrArg Except.ok ?_
      have hz := Buf.zipMap_isZip z x y f r hf
      have hz' := Buf.zipMap_isZip z x y g r' hg
      refine Buf.isZip_unique x y (z.eff g) r r' ⟨hz.1, fun ix hix => ?_⟩ hz' hs
      obtain ⟨u, v, hu, hv, hr⟩ := hz.2 ix hix
      exact ⟨u, v, hu, hv, by rw [hr, h u v ⟨_, hu⟩ ⟨_, hv⟩]⟩

theorem zipMap_const {a b c : BTy} (z : ZipImpl a b c) (x : Buf F a) (y : Buf F b)
    (f : F → F → A) (w : A) (h : ∀ u v, Buf.Entry x u → Buf.Entry y v → z.eff f u v = w) :
    Buf.zipMap z x y f =
      (z.broadcast (Buf.shape a x) (Buf.shape b y)).map (fun s => Buf.full c s w) := by
  rw [Buf.broadcast_eq z x y f]
  cases hf : Buf.zipMap z x y f with
  | error e => rfl
  | ok r =>
    refine congrArg Except.ok ?_
    have hz := Buf.zipMap_isZip z x y f r hf
    refine Buf.ext c _ _ (Buf.shape_full _ _ _).symm (fun ix hix => ?_)
    obtain ⟨u, v, hu, hv, hr⟩ := hz.2 ix hix
    rw [hr, Buf.getU_full _ _ _ _ hix, h u v ⟨_, hu⟩ ⟨_, hv⟩]

theorem broadcast_symm {a b c : BTy} (z : ZipImpl a b c) (s : Shp a) (t : Shp b) :
    Res.mapErr IncShapes.reverse (Res.ofExcept (z.symm.broadcast t s)) =
      Res.ofExcept (z.broadcast s t) := by
  cases z with
  | vv =>
    show Res.mapErr IncShapes.reverse (Res.ofExcept (ZipImpl.broadcast .vv t s)) = _
    rw [ZipImpl.broadcast_vv, ZipImpl.broadcast_vv]
    by_cases h : s = t
    · subst h; simp
    · rw [if_neg (by simpa using fun h' => h h'.symm), if_neg (by simpa using h)]; rfl
  | _ => rfl

/-- Swapping the operands and the arguments of the function (when the impls do not disagree). -/
theorem zipMap_symm {a b c : BTy} (z : ZipImpl a b c) (x : Buf F a) (y : Buf F b)
    (f : F → F → A) :
    Res.mapErr IncShapes.reverse (Res.ofExcept (Buf.zipMap z.symm y x
      (z.symm.eff (fun v u => z.eff f u v)))) = Res.ofExcept (Buf.zipMap z x y f) := by
  have heff : ∀ {a b c : BTy} (z : ZipImpl a b c) (g : F → F → A), z.eff (z.eff g) = g := by
    intro a b c z g; unfold ZipImpl.eff; split <;> rfl
  have h1 := broadcast_symm z (Buf.shape a x) (Buf.shape b y)
  rw [Buf.broadcast_eq z x y f, Buf.broadcast_eq z.symm y x
    (z.symm.eff (fun v u => z.eff f u v))] at h1
  cases hf : Buf.zipMap z x y f with
  | error e =>
    rw [hf] at h1
    cases hg : Buf.zipMap z.symm y x (z.symm.eff (fun v u => z.eff f u v)) with
    | error e' => rw [hg] at h1; exact congrArg Res.err (Res.err.inj h1)
    | ok r => rw [hg] at h1; cases h1
  | ok r =>
    rw [hf] at h1
    cases hg : Buf.zipMap z.symm y x (z.symm.eff (fun v u => z.eff f u v)) with
    | error e' => rw [hg] at h1; cases h1
    | ok r' =>
      rw [hg] at h1
      have hs : Buf.shape c r' = Buf.shape c r := Res.ok.inj h1
      refine congrArg Res.ok ?_
      have hz := Buf.zipMap_isZip z x y f r hf
      have hz' := Buf.zipMap_isZip z.symm y x _ r' hg
      rw [heff] at hz'
      refine Buf.ext c r' r hs (fun ix hix => ?_)
      obtain ⟨u, v, hu, hv, hr⟩ := hz.2 ix (by rw [Buf.dims, ← hs]; exact hix)
      obtain ⟨v', u', hv', hu', hr'⟩ := hz'.2 ix hix
      rw [hu] at hu'; rw [hv] at hv'
      cases hu'; cases hv'
      rw [hr, hr']

/-- The outcome `r` of combining compressed buffers, as far as shapes go: it follows the broadcast
`b` of the shapes, except that an incompatibility may be a panic. -/
def FollowsShape {c : BTy} (r : Res IncShapes (BSpec F c)) (b : Except IncShapes (Shp c)) : Prop :=
  r.map BSpec.shape = Res.ofExcept b ∨ (r = .panic ∧ ∃ e, b = .error e)

theorem FollowsShape.ok {c : BTy} {r : Res IncShapes (BSpec F c)} {b : Except IncShapes (Shp c)}
    (h : FollowsShape r b) {s : BSpec F c} (hr : r = .ok s) : b = .ok s.shape := by
  subst hr
  rcases h with h | h
  · exact ((Res.ofExcept_ok_iff _ _).1 h.symm)
  · cases h.1

theorem FollowsShape.err {c : BTy} {r : Res IncShapes (BSpec F c)} {b : Except IncShapes (Shp c)}
    (h : FollowsShape r b) {e : IncShapes} (hr : r = .err e) : b = .error e := by
  subst hr
  rcases h with h | h
  · cases b with
    | error e' => cases h; rfl
    | ok s => cases h
  · cases h.1

theorem FollowsShape.panic {c : BTy} {r : Res IncShapes (BSpec F c)} {b : Except IncShapes (Shp c)}
    (h : FollowsShape r b) (hr : r = .panic) : ∃ e, b = .error e := by
  subst hr
  rcases h with h | h
  · cases b <;> cases h
  · exact h.2

theorem FollowsShape.of_ok {c : BTy} {r : Res IncShapes (BSpec F c)} {b : Except IncShapes (Shp c)}
    (h : FollowsShape r b) {s : Shp c} (hb : b = .ok s) : ∃ t, r = .ok t ∧ t.shape = s := by
  subst hb
  rcases h with h | ⟨_, e, h⟩
  · cases r with
    | ok t => exact ⟨t, rfl, Res.ok.inj h⟩
    | err e => cases h
    | panic => cases h
  · cases h

/-- The broadcast error carries both shapes in operand order and is a real incompatibility. -/
theorem broadcast_error {a b c : BTy} (z : ZipImpl a b c) (s : Shp a) (t : Shp b) (e : IncShapes)
    (h : z.broadcast s t = .error e) :
    e = ⟨Shp.dims a s, Shp.dims b t⟩ ∧ ∀ ds, ¬ BCast (Shp.dims a s) (Shp.dims b t) ds := by
  have hb := Buf.broadcast_eq z (Buf.full a s ()) (Buf.full b t ()) (fun _ _ => ())
  rw [Buf.shape_full, Buf.shape_full, h] at hb
  cases hz : Buf.zipMap z (Buf.full a s ()) (Buf.full b t ()) (fun _ _ => ()) with
  | ok r => rw [hz] at hb; cases hb
  | error e' =>
    rw [hz] at hb
    cases hb
    have := Buf.zipMap_error z _ _ _ _ hz
    rwa [Buf.dims_full, Buf.dims_full] at this

theorem broadcast_ok {a b c : BTy} (z : ZipImpl a b c) (s : Shp a) (t : Shp b) (r : Shp c)
    (h : z.broadcast s t = .ok r) : BCast (Shp.dims a s) (Shp.dims b t) (Shp.dims c r) := by
  have hb := Buf.broadcast_eq z (Buf.full a s ()) (Buf.full b t ()) (fun _ _ => ())
  rw [Buf.shape_full, Buf.shape_full, h] at hb
  cases hz : Buf.zipMap z (Buf.full a s ()) (Buf.full b t ()) (fun _ _ => ()) with
  | error e' => rw [hz] at hb; cases hb
  | ok r' =>
    rw [hz] at hb
    have h1 := (Buf.zipMap_isZip z _ _ _ _ hz).1
    rw [Buf.dims_full, Buf.dims_full] at h1
    rw [Except.ok.inj hb]; exact h1

section
variable [Zero F]

theorem zipGeneral_follows {a b c : BTy} (z : ZipImpl a b c) (f : F → F → F) (x : BSpec F a)
    (y : BSpec F b) : FollowsShape (zipGeneral z f x y) (z.broadcast x.shape y.shape) := by
  unfold zipGeneral
  rw [← BSpec.shape_unwrap, ← BSpec.shape_unwrap, Buf.broadcast_eq z x.unwrap y.unwrap f,
    Buf.zipMapId_eq]
  cases Buf.zipMap z x.unwrap y.unwrap f with
  | ok r => exact .inl rfl
  | error e => exact .inr ⟨rfl, e, rfl⟩

omit [Zero F] in
theorem full_follows {a b c : BTy} (z : ZipImpl a b c) (s : Shp a) (t : Shp b) (v : F) :
    FollowsShape (Res.ofExcept ((z.broadcast s t).map (fun sz => BSpec.full sz v)))
      (z.broadcast s t) := by
  cases z.broadcast s t with
  | ok r => exact .inl rfl
  | error e => exact .inl rfl

theorem zipShape_follows {a b c : BTy} (z : ZipImpl a b c) (x : Buf F a) (t : Shp b) :
    FollowsShape (Res.ofExcept ((Buf.zipShape z x t).map .raw)) (z.broadcast (Buf.shape a x) t) := by
  have h := Buf.zipShape_eq z x (Buf.full b t 0)
  have h2 := Buf.broadcast_eq z x (Buf.full b t 0) (z.eff (fun u _ => u))
  rw [Buf.shape_full] at h h2
  rw [h, h2]
  cases Buf.zipMap z x (Buf.full b t 0) (z.eff (fun u _ => u)) with
  | ok r => exact .inl rfl
  | error e => exact .inl rfl

omit [Zero F] in
theorem FollowsShape.reverse {a b c : BTy} (z : ZipImpl a b c) {s : Shp a} {t : Shp b}
    {r : Res IncShapes (BSpec F c)} (h : FollowsShape r (z.symm.broadcast t s)) :
    FollowsShape (r.mapErr IncShapes.reverse) (z.broadcast s t) := by
  have hs := broadcast_symm z s t
  rcases h with h | ⟨h, e, he⟩
  · left
    rw [← hs, ← h, ← Res.mapErr_map]
  · right
    rw [he] at hs
    cases hb : z.broadcast s t with
    | ok r => rw [hb] at hs; cases hs
    | error e' => exact ⟨by rw [h]; rfl, e', rfl⟩

variable [ScalarFns F]

theorem addSpec_follows [Add F] {a b c : BTy} (z : ZipImpl a b c) (x : BSpec F a) (y : BSpec F b) :
    FollowsShape (addSpec z x y) (z.broadcast x.shape y.shape) := by
  cases x <;> cases y <;> simp only [addSpec] <;> try split
  all_goals first
    | exact zipGeneral_follows z _ _ _
    | exact full_follows z _ _ _
    | exact zipShape_follows z _ _
    | exact (zipShape_follows z.symm _ _).reverse z

theorem subSpec_follows [Sub F] {a b c : BTy} (z : ZipImpl a b c) (x : BSpec F a) (y : BSpec F b) :
    FollowsShape (subSpec z x y) (z.broadcast x.shape y.shape) := by
  cases x <;> cases y <;> simp only [subSpec] <;> try split
  all_goals first
    | exact zipGeneral_follows z _ _ _
    | exact full_follows z _ _ _
    | exact zipShape_follows z _ _

theorem mulSpec_follows [Mul F] {a b c : BTy} (z : ZipImpl a b c) (x : BSpec F a) (y : BSpec F b) :
    FollowsShape (mulSpec z x y) (z.broadcast x.shape y.shape) := by
  cases x <;> cases y <;> simp only [mulSpec] <;> try split
  all_goals first
    | exact zipGeneral_follows z _ _ _
    | exact full_follows z _ _ _

end

/-- The successful outcomes of `r` and `m` have the same values. -/
def SameOk {c : BTy} [Zero F] (r : Res IncShapes (BSpec F c)) (m : Except IncShapes (Buf F c)) : Prop :=
  ∀ v, (∃ s, r = .ok s ∧ s.unwrap = v) ↔ m = .ok v

theorem sameOk_of_map {c : BTy} [Zero F] {r : Res IncShapes (BSpec F c)}
    {m : Except IncShapes (Buf F c)} (h : r.map BSpec.unwrap = Res.ofExcept m) : SameOk r m := by
  intro v
  cases r with
  | ok s =>
    cases m with
    | ok b => simp only [Res.map_ok, Res.ofExcept_ok, Res.ok.injEq] at h; simp [h]
    | error e => cases h
  | err e => cases m <;> simp_all
  | panic => cases m <;> simp_all

theorem zipGeneral_sameOk {a b c : BTy} [Zero F] (z : ZipImpl a b c) (f : F → F → F)
    (x : BSpec F a) (y : BSpec F b) :
    SameOk (zipGeneral z f x y) (Buf.zipMap z x.unwrap y.unwrap f) := by
  intro v
  unfold zipGeneral
  rw [Buf.zipMapId_eq]
  cases Buf.zipMap z x.unwrap y.unwrap f with
  | ok b => simp [BSpec.unwrap]
  | error e => simp

section
variable [CommRing F] [ScalarFns F] [LawfulScalar F]

theorem addSpec_sameOk {a b c : BTy} (z : ZipImpl a b c) (x : BSpec F a) (y : BSpec F b) :
    SameOk (addSpec z x y) (Buf.zipMap z x.unwrap y.unwrap (· + ·)) := by
  have heff : z.eff (fun u v : F => u + v) = fun u v => u + v :=
    ZipImpl.eff_comm z _ (fun u v => add_comm u v)
  cases x with
  | raw x =>
    cases y with
    | full sy fy =>
      simp only [addSpec]
      split
      · rename_i h0
        rw [LawfulScalar.isZero_iff] at h0; subst h0
        apply sameOk_of_map
        have h := Buf.zipShape_eq z x (Buf.full b sy 0)
        rw [Buf.shape_full] at h
        rw [h]
        have hc : Buf.zipMap z x (Buf.full b sy 0) (z.eff fun u _ => u)
            = Buf.zipMap z x (Buf.full b sy 0) (· + ·) := by
          apply zipMap_congr
          intro u v _ hv
          rw [heff, Buf.entry_full hv]
          unfold ZipImpl.eff; split <;> simp
        rw [hc]
        show _ = Res.ofExcept (Buf.zipMap z x (Buf.full b sy 0) (· + ·))
        cases Buf.zipMap z x (Buf.full b sy 0) (· + ·) <;> rfl
      · exact zipGeneral_sameOk z _ _ _
    | _ => exact zipGeneral_sameOk z _ _ _
  | full sx fx =>
    cases y with
    | raw y =>
      simp only [addSpec]
      split
      · rename_i h0
        rw [LawfulScalar.isZero_iff] at h0; subst h0
        apply sameOk_of_map
        have h := Buf.zipShape_eq z.symm y (Buf.full a sx 0)
        rw [Buf.shape_full] at h
        rw [h]
        have hc : Buf.zipMap z.symm y (Buf.full a sx 0) (z.symm.eff fun u _ => u)
            = Buf.zipMap z.symm y (Buf.full a sx 0) (z.symm.eff (fun v u => z.eff (· + ·) u v)) := by
          apply zipMap_congr
          intro u v _ hv
          rw [heff, Buf.entry_full hv]
          unfold ZipImpl.eff; split <;> simp
        rw [hc]
        have h2 := zipMap_symm z (Buf.full a sx 0) y (· + ·)
        show _ = Res.ofExcept (Buf.zipMap z (Buf.full a sx 0) y (· + ·))
        rw [← h2]
        cases Buf.zipMap z.symm y (Buf.full a sx 0) (z.symm.eff (fun v u => z.eff (· + ·) u v)) <;> rfl
      · exact zipGeneral_sameOk z _ _ _
    | full sy fy =>
      apply sameOk_of_map
      show _ = Res.ofExcept (Buf.zipMap z (Buf.full a sx fx) (Buf.full b sy fy) (· + ·))
      rw [zipMap_full, heff]
      simp only [addSpec]
      cases z.broadcast sx sy <;> rfl
    | diagonal sy fy => exact zipGeneral_sameOk z _ _ _
  | diagonal sx fx => cases y <;> exact zipGeneral_sameOk z _ _ _

theorem subSpec_sameOk {a b c : BTy} (z : ZipImpl a b c) (hz : z.swaps = false) (x : BSpec F a)
    (y : BSpec F b) : SameOk (subSpec z x y) (Buf.zipMap z x.unwrap y.unwrap (· - ·)) := by
  have heff : ∀ f : F → F → F, z.eff f = f := ZipImpl.eff_of_not_swaps z hz
  cases x with
  | raw x =>
    cases y with
    | full sy fy =>
      simp only [subSpec]
      split
      · rename_i h0
        rw [LawfulScalar.isZero_iff] at h0; subst h0
        apply sameOk_of_map
        have h := Buf.zipShape_eq z x (Buf.full b sy 0)
        rw [Buf.shape_full] at h
        rw [h]
        have hc : Buf.zipMap z x (Buf.full b sy 0) (z.eff fun u _ => u)
            = Buf.zipMap z x (Buf.full b sy 0) (· - ·) := by
          apply zipMap_congr
          intro u v _ hv
          rw [heff, heff, heff, Buf.entry_full hv]
          simp
        rw [hc]
        show _ = Res.ofExcept (Buf.zipMap z x (Buf.full b sy 0) (· - ·))
        cases Buf.zipMap z x (Buf.full b sy 0) (· - ·) <;> rfl
      · exact zipGeneral_sameOk z _ _ _
    | _ => exact zipGeneral_sameOk z _ _ _
  | full sx fx =>
    cases y with
    | full sy fy =>
      apply sameOk_of_map
      show _ = Res.ofExcept (Buf.zipMap z (Buf.full a sx fx) (Buf.full b sy fy) (· - ·))
      rw [zipMap_full, heff]
      simp only [subSpec]
      cases z.broadcast sx sy <;> rfl
    | _ => exact zipGeneral_sameOk z _ _ _
  | diagonal sx fx => cases y <;> exact zipGeneral_sameOk z _ _ _

theorem mulSpec_sameOk {a b c : BTy} (z : ZipImpl a b c) (x : BSpec F a) (y : BSpec F b) :
    SameOk (mulSpec z x y) (Buf.zipMap z x.unwrap y.unwrap (· * ·)) := by
  have heff : z.eff (fun u v : F => u * v) = fun u v => u * v :=
    ZipImpl.eff_comm z _ (fun u v => mul_comm u v)
  have zl : ∀ (sx : Shp a) (y : BSpec F b),
      Res.map BSpec.unwrap (Res.ofExcept ((z.broadcast sx y.shape).map
        (fun sz => (BSpec.zeroes sz : BSpec F c)))) =
      Res.ofExcept (Buf.zipMap z (Buf.full a sx 0) y.unwrap (· * ·)) := by
    intro sx y
    rw [zipMap_const z (Buf.full a sx 0) y.unwrap (· * ·) 0, Buf.shape_full, BSpec.shape_unwrap]
    · cases z.broadcast sx y.shape <;> rfl
    · intro u v hu _; rw [heff, Buf.entry_full hu]; simp
  have zr : ∀ (x : BSpec F a) (sy : Shp b),
      Res.map BSpec.unwrap (Res.ofExcept ((z.broadcast x.shape sy).map
        (fun sz => (BSpec.zeroes sz : BSpec F c)))) =
      Res.ofExcept (Buf.zipMap z x.unwrap (Buf.full b sy 0) (· * ·)) := by
    intro x sy
    rw [zipMap_const z x.unwrap (Buf.full b sy 0) (· * ·) 0, Buf.shape_full, BSpec.shape_unwrap]
    · cases z.broadcast x.shape sy <;> rfl
    · intro u v _ hv; rw [heff, Buf.entry_full hv]; simp
  cases x with
  | full sx fx =>
    cases y with
    | full sy fy =>
      apply sameOk_of_map
      show _ = Res.ofExcept (Buf.zipMap z (Buf.full a sx fx) (Buf.full b sy fy) (· * ·))
      rw [zipMap_full, heff]
      simp only [mulSpec]
      cases z.broadcast sx sy <;> rfl
    | raw y =>
      simp only [mulSpec]
      split
      · rename_i h0
        rw [LawfulScalar.isZero_iff] at h0; subst h0
        exact sameOk_of_map (zl sx (.raw y))
      · exact zipGeneral_sameOk z _ _ _
    | diagonal sy fy =>
      simp only [mulSpec]
      split
      · rename_i h0
        rw [LawfulScalar.isZero_iff] at h0; subst h0
        exact sameOk_of_map (zl sx (.diagonal sy fy))
      · exact zipGeneral_sameOk z _ _ _
  | raw x =>
    cases y with
    | full sy fy =>
      simp only [mulSpec]
      split
      · rename_i h0
        rw [LawfulScalar.isZero_iff] at h0; subst h0
        exact sameOk_of_map (zr (.raw x) sy)
      · exact zipGeneral_sameOk z _ _ _
    | _ => exact zipGeneral_sameOk z _ _ _
  | diagonal sx fx =>
    cases y with
    | full sy fy =>
      simp only [mulSpec]
      split
      · rename_i h0
        rw [LawfulScalar.isZero_iff] at h0; subst h0
        exact sameOk_of_map (zr (.diagonal sx fx) sy)
      · exact zipGeneral_sameOk z _ _ _
    | _ => exact zipGeneral_sameOk z _ _ _

end

end Aegir
