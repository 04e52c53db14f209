import Verif.Spec.Eval
import Verif.Proof.Sem

/-!
# Definedness depends on the free variables only
-/

namespace Verif.Proof
open Verif Verif.Model Verif.Spec

mutual
theorem defE_congr (D : Dom) (I : Interp) (e : Expr) (ρ ρ' : Valuation)
    (h : ∀ v ∈ e.vars, ρ v = ρ' v) : DefE D I ρ e ↔ DefE D I ρ' e := by
  cases e with
  | const q => simp [DefE]
  | rconst r => simp [DefE]
  | var v => simp [DefE]
  | add a b =>
    simp only [Expr.vars, List.mem_append] at h
    simp only [DefE]
    rw [defE_congr D I a ρ ρ' (fun v hv => h v (Or.inl hv)),
      defE_congr D I b ρ ρ' (fun v hv => h v (Or.inr hv))]
  | mul a b =>
    simp only [Expr.vars, List.mem_append] at h
    simp only [DefE]
    rw [defE_congr D I a ρ ρ' (fun v hv => h v (Or.inl hv)),
      defE_congr D I b ρ ρ' (fun v hv => h v (Or.inr hv))]
  | app1 f a =>
    simp only [Expr.vars] at h
    simp only [DefE]
    rw [defE_congr D I a ρ ρ' h, eval_congr I a ρ ρ' h]
  | app2 f a b =>
    simp only [Expr.vars, List.mem_append] at h
    simp only [DefE]
    rw [defE_congr D I a ρ ρ' (fun v hv => h v (Or.inl hv)),
      defE_congr D I b ρ ρ' (fun v hv => h v (Or.inr hv)),
      eval_congr I a ρ ρ' (fun v hv => h v (Or.inl hv)),
      eval_congr I b ρ ρ' (fun v hv => h v (Or.inr hv))]
  | ite c a b =>
    simp only [Expr.vars, List.mem_append] at h
    simp only [DefE]
    rw [defF_congr D I c ρ ρ' (fun v hv => h v (Or.inl hv)),
      holds_congr I c ρ ρ' (fun v hv => h v (Or.inl hv)),
      defE_congr D I a ρ ρ' (fun v hv => h v (Or.inr (Or.inl hv))),
      defE_congr D I b ρ ρ' (fun v hv => h v (Or.inr (Or.inr hv)))]
theorem defF_congr (D : Dom) (I : Interp) (f : Fml) (ρ ρ' : Valuation)
    (h : ∀ v ∈ f.fv, ρ v = ρ' v) : DefF D I ρ f ↔ DefF D I ρ' f := by
  cases f with
  | ff => simp [DefF]
  | tt => simp [DefF]
  | bvar v => simp [DefF]
  | rel op a b =>
    simp only [Fml.fv, List.mem_append] at h
    simp only [DefF]
    rw [defE_congr D I a ρ ρ' (fun v hv => h v (Or.inl hv)),
      defE_congr D I b ρ ρ' (fun v hv => h v (Or.inr hv))]
  | conj fs => simp only [DefF]; exact defFs_congr D I fs ρ ρ' h
  | disj fs => simp only [DefF]; exact defFs_congr D I fs ρ ρ' h
  | neg f => simp only [DefF]; exact defF_congr D I f ρ ρ' h
  | all vs f =>
    simp only [Fml.fv, List.mem_filter, decide_eq_true_eq] at h
    simp only [DefF]
    constructor
    · intro H σ hσ ht
      rw [defF_congr D I f σ (fun v => if v ∈ vs then σ v else ρ v)]
      · refine H _ (fun v hv => by simp [hv]) (fun v hv => by simpa [hv] using ht v hv)
      · intro v hv
        by_cases hvs : v ∈ vs
        · simp [hvs]
        · simp only [hvs, if_false]; rw [hσ v hvs, h v ⟨hv, hvs⟩]
    · intro H σ hσ ht
      rw [defF_congr D I f σ (fun v => if v ∈ vs then σ v else ρ' v)]
      · refine H _ (fun v hv => by simp [hv]) (fun v hv => by simpa [hv] using ht v hv)
      · intro v hv
        by_cases hvs : v ∈ vs
        · simp [hvs]
        · simp only [hvs, if_false]; rw [hσ v hvs, h v ⟨hv, hvs⟩]
theorem defFs_congr (D : Dom) (I : Interp) (fs : List Fml) (ρ ρ' : Valuation)
    (h : ∀ v ∈ Fml.fvList fs, ρ v = ρ' v) : DefFs D I ρ fs ↔ DefFs D I ρ' fs := by
  cases fs with
  | nil => simp [DefFs]
  | cons f fs =>
    simp only [Fml.fvList, List.mem_append] at h
    simp only [DefFs]
    rw [defF_congr D I f ρ ρ' (fun v hv => h v (Or.inl hv)),
      defFs_congr D I fs ρ ρ' (fun v hv => h v (Or.inr hv))]
end

end Verif.Proof
