import Verif.Model.Resolve
/-!
# Trait resolution finds every impl
-/

namespace Aegir

theorem zipImpl?_complete {a b c : BTy} (z : ZipImpl a b c) : zipImpl? a b = some ⟨c, z⟩ := by
  cases z <;> simp [zipImpl?]

theorem contractImpl?_complete {k : Nat} {a b c : BTy} (z : ContractImpl k a b c) :
    contractImpl? k a b = some ⟨c, z⟩ := by
  cases z <;> simp [contractImpl?]

theorem concatImpl?_complete {a b c : BTy} (k : ConcatImpl a b c) :
    concatImpl? a b = some ⟨c, k⟩ := by
  cases k <;> simp [concatImpl?, *]

variable {F : Type} {Γ : Id → BTy}

theorem FnImpl.as?_self {e : Node F} {τ : BTy} (d : FnImpl Γ e τ) : d.as? τ = some d := by
  simp [FnImpl.as?]

theorem FnImpl.resolve_eq {e : Node F} {τ : BTy} (d : FnImpl Γ e τ) :
    resolve Γ e = some ⟨τ, d⟩ := by
  induction d with
  | var i => rfl
  | varAdj i t k h => simp [resolve, h, concatImpl?_complete k]
  | const τ b => rfl
  | constSpec τ s => rfl
  | constAdj d t k ih => simp [resolve, ih, concatImpl?_complete k]
  | cached i d ih => simp [resolve, ih, d.as?_self]
  | add dl dr z ihl ihr => simp [resolve, ihl, ihr, zipImpl?_complete z]
  | sub dl dr z ihl ihr => simp [resolve, ihl, ihr, zipImpl?_complete z]
  | mul dl dr z ihl ihr => simp [resolve, ihl, ihr, zipImpl?_complete z]
  | div dl dr z ihl ihr => simp [resolve, ihl, ihr, zipImpl?_complete z]
  | power dl dr ihl ihr => simp [resolve, ihl, ihr, dl.as?_self, dr.as?_self]
  | contract dl dr z ihl ihr => simp [resolve, ihl, ihr, contractImpl?_complete z]
  | sum d ih => simp [resolve, ih]
  | un op d ih => simp [resolve, ih]

end Aegir
