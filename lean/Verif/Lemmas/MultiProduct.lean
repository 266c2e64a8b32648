import Verif.Model.MultiProduct
import Verif.Lemmas.Shape
import Mathlib.Algebra.BigOperators.Ring.List
import Mathlib.Algebra.Order.Group.Nat
/-! Helper lemmas about the runtime index iterator. -/

namespace Aegir.MultiProduct

open Spec

/-- Axis positioned at `i` in `0..d`. -/
def onIx (i d : Nat) : Axis := ⟨some i, ⟨i + 1, d⟩, ⟨0, d⟩⟩
/-- Axis that has run off its end. -/
def exh (d : Nat) : Axis := ⟨none, ⟨d, d⟩, ⟨0, d⟩⟩
/-- Fresh axis. -/
def fresh (d : Nat) : Axis := ⟨none, ⟨0, d⟩, ⟨0, d⟩⟩

/-- Mixed-radix digits, last axis first. -/
def dec : List Nat → Nat → List Nat
  | [], _ => []
  | d :: ds, k => (k % d) :: dec ds (k / d)

theorem length_dec (ds k) : (dec ds k).length = ds.length := by
  induction ds generalizing k with
  | nil => rfl
  | cons d ds ih => simp [dec, ih]

/-- Axes (in reverse order) at the `k`-th index. -/
def stR (ds : List Nat) (k : Nat) : List Axis := List.zipWith onIx (dec ds k) ds

theorem onIx_iterate_lt {i d : Nat} (h : i + 1 < d) : (onIx i d).iterate = onIx (i + 1) d := by
  simp [onIx, Axis.iterate, Range.next, h]

theorem onIx_iterate_end {i d : Nat} (h : i + 1 = d) : (onIx i d).iterate = exh d := by
  subst h; simp [onIx, exh, Axis.iterate, Range.next]

theorem reset_iterate_of_orig {a : Axis} {d : Nat} (h : a.iterOrig = ⟨0, d⟩) (hd : 0 < d) :
    a.reset.iterate = onIx 0 d := by
  cases a; simp only at h; subst h
  simp [Axis.reset, Axis.iterate, Range.next, onIx, hd]

theorem pos_of_mem_cons {d : Nat} {ds : List Nat} (h : ∀ x ∈ d :: ds, 0 < x) :
    0 < d ∧ ∀ x ∈ ds, 0 < x := by simpa using h

theorem step_mid (ds : List Nat) (hpos : ∀ x ∈ ds, 0 < x) (k : Nat) (hk : k < ds.prod) :
    iterateLast (stR ds k) (.midIter false) =
      if k + 1 < ds.prod then (true, stR ds (k + 1)) else (false, ds.map exh) := by
  induction ds generalizing k with
  | nil => simp [stR, dec, iterateLast]
  | cons d ds ih =>
    obtain ⟨hd, hds⟩ := pos_of_mem_cons hpos
    rw [List.prod_cons] at hk ⊢
    have hq : k / d < ds.prod := Nat.div_lt_of_lt_mul hk
    have hkd := Nat.div_add_mod k d
    have hm := Nat.mod_lt k hd
    have hst : stR (d :: ds) k = onIx (k % d) d :: stR ds (k / d) := rfl
    rw [hst, iterateLast]
    by_cases hlt : k % d + 1 < d
    · have h1 : (k + 1) % d = k % d + 1 := by
        rw [Nat.add_mod, Nat.mod_eq_of_lt (show 1 < d by omega), Nat.mod_eq_of_lt hlt]
      have h2 : (k + 1) / d = k / d := by
        rw [Nat.div_eq_iff hd]
        have e : k / d * d = d * (k / d) := Nat.mul_comm _ _
        constructor <;> omega
      have h3 : k + 1 < d * ds.prod := by
        have : d * (k / d + 1) ≤ d * ds.prod := Nat.mul_le_mul_left d hq
        rw [Nat.mul_add, Nat.mul_one] at this
        omega
      have hst' : stR (d :: ds) (k + 1) = onIx (k % d + 1) d :: stR ds (k / d) := by
        simp [stR, dec, h1, h2]
      have hp : (onIx (k % d + 1) d).inProgress = true := rfl
      simp [onIx_iterate_lt hlt, h3, hst', hp]
    · have hend : k % d + 1 = d := by omega
      have h1 : k + 1 = d * (k / d + 1) := by rw [Nat.mul_add, Nat.mul_one]; omega
      have h2 : (k + 1) % d = 0 := by rw [h1]; exact Nat.mul_mod_right _ _
      have h3 : (k + 1) / d = k / d + 1 := by rw [h1]; exact Nat.mul_div_cancel_left _ hd
      have h4 : k + 1 < d * ds.prod ↔ k / d + 1 < ds.prod := by
        rw [h1]; exact Nat.mul_lt_mul_left hd
      have hst' : stR (d :: ds) (k + 1) = onIx 0 d :: stR ds (k / d + 1) := by
        simp [stR, dec, h2, h3]
      simp only [Bool.not_false, if_true, onIx_iterate_end hend, ih hds _ hq, h4]
      have he : (exh d).inProgress = false := rfl
      have hr : (exh d).reset.iterate = onIx 0 d := reset_iterate_of_orig rfl hd
      by_cases hc : k / d + 1 < ds.prod
      · simp [hc, he, hr, hst']; rfl
      · simp [hc, he]

theorem step_start (ds : List Nat) (hne : ds ≠ []) (hpos : ∀ x ∈ ds, 0 < x) (k : Nat)
    (hk : k < ds.prod) :
    iterateLast (stR ds k) .startOfIter =
      if k + 1 < ds.prod then (true, stR ds (k + 1)) else (false, ds.map exh) := by
  rw [← step_mid ds hpos k hk]
  cases ds with
  | nil => exact absurd rfl hne
  | cons d ds => simp [stR, dec, iterateLast, onIx, Axis.inProgress]

/-- Axes that are all waiting to be (re)started. -/
def Waiting (ds : List Nat) (axes : List Axis) : Prop :=
  List.Forall₂ (fun (a : Axis) d => a.cur = none ∧ a.iterOrig = ⟨0, d⟩) axes ds

theorem begin_mid (ds : List Nat) (hpos : ∀ x ∈ ds, 0 < x) (axes : List Axis)
    (hw : Waiting ds axes) : iterateLast axes (.midIter true) = (true, stR ds 0) := by
  induction hw with
  | nil => rfl
  | @cons a d axes ds ha hw ih =>
    obtain ⟨hd, hds⟩ := pos_of_mem_cons hpos
    have hip : a.inProgress = false := by simp [Axis.inProgress, ha.1]
    rw [iterateLast]
    simp [ih hds, hip, reset_iterate_of_orig ha.2 hd, stR, dec]
    rfl

theorem begin_start (ds : List Nat) (hne : ds ≠ []) (hpos : ∀ x ∈ ds, 0 < x) (axes : List Axis)
    (hw : Waiting ds axes) : iterateLast axes .startOfIter = (true, stR ds 0) := by
  rw [← begin_mid ds hpos axes hw]
  cases hw with
  | nil => exact absurd rfl hne
  | cons ha hw =>
    simp [iterateLast, Axis.inProgress, ha.1]

/-- Some axis is empty and everything after it is waiting. -/
def Blocked (axes : List Axis) : Prop :=
  ∃ pre z post, axes = pre ++ z :: post ∧ (∀ a ∈ pre, a.cur = none) ∧ z.cur = none ∧
    z.iterOrig = ⟨0, 0⟩

theorem blocked_mid (axes : List Axis) (h : Blocked axes) :
    (iterateLast axes (.midIter true)).1 = false ∧
      Blocked (iterateLast axes (.midIter true)).2 := by
  obtain ⟨pre, z, post, rfl, hpre, hz, ho⟩ := h
  induction pre with
  | nil =>
    have hip : z.inProgress = false := by simp [Axis.inProgress, hz]
    have hz' : z.reset.iterate.cur = none ∧ z.reset.iterate.iterOrig = ⟨0, 0⟩ := by
      cases z; simp only at ho; subst ho
      simp [Axis.reset, Axis.iterate, Range.next]
    have hip' : z.reset.iterate.inProgress = false := by simp [Axis.inProgress, hz'.1]
    simp only [List.nil_append]
    rw [iterateLast]
    simp only [Bool.not_true, Bool.false_eq_true, if_false, hip]
    split
    · exact ⟨hip', [], _, _, rfl, by simp, hz'.1, hz'.2⟩
    · exact ⟨rfl, [], _, _, rfl, by simp, hz, ho⟩
  | cons a pre ih =>
    have ⟨ih1, ih2⟩ := ih (fun x hx => hpre x (List.mem_cons_of_mem _ hx))
    have ha : a.cur = none := hpre a List.mem_cons_self
    have hip : a.inProgress = false := by simp [Axis.inProgress, ha]
    simp only [List.cons_append]
    rw [iterateLast]
    simp only [Bool.not_true, Bool.false_eq_true, if_false, hip, ih1]
    refine ⟨trivial, ?_⟩
    obtain ⟨pre', z', post', h1, h2, h3, h4⟩ := ih2
    refine ⟨a :: pre', z', post', by rw [h1]; rfl, ?_, h3, h4⟩
    intro x hx
    rcases List.mem_cons.1 hx with rfl | hx
    · exact ha
    · exact h2 x hx

theorem blocked_start (axes : List Axis) (h : Blocked axes) :
    (iterateLast axes .startOfIter).1 = false ∧ Blocked (iterateLast axes .startOfIter).2 := by
  have : iterateLast axes .startOfIter = iterateLast axes (.midIter true) := by
    obtain ⟨pre, z, post, rfl, hpre, hz, ho⟩ := h
    cases pre with
    | nil => simp [iterateLast, Axis.inProgress, hz]
    | cons a pre => simp [iterateLast, Axis.inProgress, hpre a List.mem_cons_self]
  rw [this]; exact blocked_mid axes h

/-! ### The whole iterator -/

/-- Iterator over `ds` positioned at the `k`-th index. -/
def at_ (ds : Dims) (k : Nat) : MIter := ⟨(stR ds.reverse k).reverse⟩

/-- Iterator over `ds` right after returning `None`. -/
def finished (ds : Dims) : MIter := ⟨ds.map exh⟩

theorem iproductStep_get (l : List Idx) (d k : Nat) (hd : 0 < d) :
    (Shape.iproductStep l d)[k]? = (l[k / d]?).map (fun ix => ix ++ [k % d]) := by
  induction l generalizing k with
  | nil => simp [Shape.iproductStep]
  | cons a l ih =>
    have hcons : Shape.iproductStep (a :: l) d =
        (List.range d).map (fun j => a ++ [j]) ++ Shape.iproductStep l d := by
      simp [Shape.iproductStep]
    rw [hcons]
    by_cases hk : k < d
    · rw [List.getElem?_append_left (by simpa using hk)]
      simp [Nat.div_eq_of_lt hk, Nat.mod_eq_of_lt hk, List.getElem?_range hk]
    · have hk : d ≤ k := Nat.le_of_not_lt hk
      rw [List.getElem?_append_right (by simpa using hk), List.length_map, List.length_range,
        ih, Nat.mod_eq_sub_mod hk]
      have : k / d = (k - d) / d + 1 := by rw [Nat.div_eq_sub_div hd hk]
      rw [this, List.getElem?_cons_succ]

theorem prod_pos_of {ds : List Nat} (h : 0 < ds.prod) : ∀ x ∈ ds, 0 < x := by
  intro x hx
  rcases Nat.eq_zero_or_pos x with rfl | h'
  · rw [List.prod_eq_zero hx] at h; exact absurd h (lt_irrefl _)
  · exact h'

theorem indices_get (ds : Dims) (k : Nat) (hk : k < ds.prod) :
    (Shape.indices ds)[k]? = some (dec ds.reverse k).reverse := by
  induction ds using List.reverseRecOn generalizing k with
  | nil =>
    have : k = 0 := by simpa using hk
    subst this; rfl
  | append_singleton ds d ih =>
    rw [List.prod_append, List.prod_singleton] at hk
    have hd : 0 < d := Nat.pos_of_ne_zero (by rintro rfl; simp at hk)
    rw [indices_snoc, iproductStep_get _ _ _ hd, ih _ (Nat.div_lt_of_lt_mul (by rwa [Nat.mul_comm]))]
    simp [dec]

theorem mapM_cur (ix ds : List Nat) (h : ix.length = ds.length) :
    (List.zipWith onIx ix ds).mapM (fun a => a.cur) = some ix := by
  induction ix generalizing ds with
  | nil => simp
  | cons i ix ih =>
    cases ds with
    | nil => simp at h
    | cons d ds =>
      have := ih ds (by simpa using h)
      simp [onIx] at this ⊢
      simp [this]

theorem at_axes (ds : Dims) (k : Nat) :
    (at_ ds k).axes = List.zipWith onIx (dec ds.reverse k).reverse ds := by
  simp only [at_, stR]
  rw [List.reverse_zipWith (length_dec _ _), List.reverse_reverse]

theorem curr_at (ds : Dims) (k : Nat) (hk : k < ds.prod) :
    currIterator (at_ ds k) = (Shape.indices ds)[k]? := by
  rw [indices_get ds k hk, currIterator, at_axes]
  exact mapM_cur _ _ (by simp [length_dec])

theorem next_at (ds : Dims) (hne : ds ≠ []) (k : Nat) (hk : k < ds.prod) :
    next (at_ ds k) =
      if h : k + 1 < ds.prod then
        (.item ((Shape.indices ds)[k + 1]'(by rwa [length_indices, cardinality_eq_prod])),
          at_ ds (k + 1))
      else (.done, finished ds) := by
  have hpos : ∀ x ∈ ds.reverse, 0 < x := by
    intro x hx; exact prod_pos_of (lt_of_le_of_lt (Nat.zero_le _) hk) x (by simpa using hx)
  have hstep := step_start ds.reverse (by simpa using hne) hpos k (by simpa using hk)
  simp only [List.prod_reverse] at hstep
  have haxes : (at_ ds k).axes.reverse = stR ds.reverse k := by simp [at_]
  rw [next, haxes, hstep]
  by_cases h : k + 1 < ds.prod
  · have hc := curr_at ds (k + 1) h
    have hl : k + 1 < (Shape.indices ds).length := by rwa [length_indices, cardinality_eq_prod]
    rw [List.getElem?_eq_getElem hl] at hc
    simp only [h, if_true, dif_pos]
    have : (⟨(stR ds.reverse (k + 1)).reverse⟩ : MIter) = at_ ds (k + 1) := rfl
    rw [this, hc]
  · simp [h, finished]

/-- States from which the iteration (re)starts. -/
def Idle (ds : Dims) (m : MIter) : Prop := Waiting ds.reverse m.axes.reverse

theorem next_idle (ds : Dims) (hne : ds ≠ []) (hp : 0 < ds.prod) (m : MIter) (hm : Idle ds m) :
    next m = (.item ((Shape.indices ds)[0]'(by rwa [length_indices, cardinality_eq_prod])),
      at_ ds 0) := by
  have hpos : ∀ x ∈ ds.reverse, 0 < x := by
    intro x hx; exact prod_pos_of hp x (by simpa using hx)
  have hb := begin_start ds.reverse (by simpa using hne) hpos _ hm
  have hc := curr_at ds 0 hp
  have hl : 0 < (Shape.indices ds).length := by rwa [length_indices, cardinality_eq_prod]
  rw [List.getElem?_eq_getElem hl] at hc
  rw [next, hb]
  simp only [if_true]
  have : (⟨(stR ds.reverse 0).reverse⟩ : MIter) = at_ ds 0 := rfl
  rw [this, hc]

theorem idle_new (ds : Dims) : Idle ds (new ds) := by
  simp only [Idle, new, Waiting, ← List.map_reverse]
  rw [List.forall₂_map_left_iff, List.forall₂_same]
  simp

theorem idle_finished (ds : Dims) : Idle ds (finished ds) := by
  simp only [Idle, finished, Waiting, ← List.map_reverse]
  rw [List.forall₂_map_left_iff, List.forall₂_same]
  simp [exh]

theorem nth_add (a b : Nat) (m : MIter) : nth (a + b) m = nth b (after a m) := by
  induction a generalizing m with
  | zero => simp [after]
  | succ a ih =>
    have : a + 1 + b = (a + b) + 1 := by omega
    rw [this, nth, after, ih]

theorem after_add (a b : Nat) (m : MIter) : after (a + b) m = after b (after a m) := by
  induction a generalizing m with
  | zero => simp [after]
  | succ a ih =>
    have : a + 1 + b = (a + b) + 1 := by omega
    rw [this, after, after, ih]

theorem after_idle (ds : Dims) (hne : ds ≠ []) (m : MIter) (hm : Idle ds m) (k : Nat)
    (hk : k < ds.prod) : after (k + 1) m = at_ ds k := by
  induction k with
  | zero => simp [after, next_idle ds hne (by omega) m hm]
  | succ k ih =>
    rw [after_add, ih (by omega)]
    simp [after, next_at ds hne k (by omega), hk]

theorem nth_idle (ds : Dims) (hne : ds ≠ []) (m : MIter) (hm : Idle ds m) (k : Nat)
    (hk : k < ds.prod) :
    nth k m = .item ((Shape.indices ds)[k]'(by rwa [length_indices, cardinality_eq_prod])) := by
  cases k with
  | zero => simp [nth, next_idle ds hne hk m hm]
  | succ k =>
    have : nth (k + 1) m = nth 0 (after (k + 1) m) := nth_add (k + 1) 0 m
    rw [this, after_idle ds hne m hm k (by omega)]
    simp [nth, next_at ds hne k (by omega), hk]

theorem nth_idle_done (ds : Dims) (hne : ds ≠ []) (hp : 0 < ds.prod) (m : MIter)
    (hm : Idle ds m) : nth ds.prod m = .done ∧ after (ds.prod + 1) m = finished ds := by
  obtain ⟨k, hk⟩ : ∃ k, ds.prod = k + 1 := ⟨ds.prod - 1, by omega⟩
  have h := next_at ds hne k (by omega)
  rw [dif_neg (by omega)] at h
  have ha := after_idle ds hne m hm k (by omega)
  constructor
  · have : nth (k + 1) m = nth 0 (after (k + 1) m) := nth_add (k + 1) 0 m
    rw [hk, this, ha]; simp [nth, h]
  · rw [hk, after_add (k + 1) 1, ha]; simp [after, h]

theorem blocked_new (ds : Dims) (h : ds.prod = 0) : Blocked (new ds).axes.reverse := by
  have h0 : 0 ∈ ds.reverse := by simpa using List.prod_eq_zero_iff.1 h
  obtain ⟨a, b, hab⟩ := List.append_of_mem h0
  refine ⟨a.map fresh, fresh 0, b.map fresh, ?_, ?_, rfl, rfl⟩
  · simp only [new, ← List.map_reverse, hab]
    simp [fresh]; rfl
  · intro x hx
    obtain ⟨y, _, rfl⟩ := List.mem_map.1 hx
    rfl

theorem next_blocked (m : MIter) (h : Blocked m.axes.reverse) :
    (next m).1 = .done ∧ Blocked (next m).2.axes.reverse := by
  have ⟨h1, h2⟩ := blocked_start _ h
  simp only [next]
  rw [h1]
  simpa using h2

theorem nth_blocked (k : Nat) (m : MIter) (h : Blocked m.axes.reverse) : nth k m = .done := by
  induction k generalizing m with
  | zero => exact (next_blocked m h).1
  | succ k ih => exact ih _ (next_blocked m h).2

end Aegir.MultiProduct
