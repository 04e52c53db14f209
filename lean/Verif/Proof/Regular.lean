import Verif.Proof.Atoms
import Verif.Proof.DefCongr
import Verif.Spec.Ite

/-! Well-formed formulas and regular points: closure under the constructions. -/

namespace Verif.Proof
open Verif Verif.Model Verif.Spec

mutual
theorem wfF_iff {V} : ∀ f, WfF V f ↔
    ForAtoms (fun _ a b => WfE V a ∧ WfE V b) (fun v => v.type = .boolean ∧ V v)
      (fun vs g => Matrix g ∧ WfF (fun v => V v ∨ v ∈ vs) g) f
  | .ff => Iff.rfl
  | .tt => Iff.rfl
  | .bvar _ => Iff.rfl
  | .rel _ _ _ => Iff.rfl
  | .conj fs => wfFs_iff fs
  | .disj fs => wfFs_iff fs
  | .neg f => wfF_iff f
  | .all _ _ => Iff.rfl
theorem wfFs_iff {V} : ∀ fs, WfFs V fs ↔
    ForAtomsL (fun _ a b => WfE V a ∧ WfE V b) (fun v => v.type = .boolean ∧ V v)
      (fun vs g => Matrix g ∧ WfF (fun v => V v ∨ v ∈ vs) g) fs
  | [] => Iff.rfl
  | f :: fs => and_congr (wfF_iff f) (wfFs_iff fs)
end

/-- A regular relation. -/
def RegR (D : Dom) (I : Interp) (d : Dbl) (ρ : Valuation) (op : RelOp) (a b : Expr) : Prop :=
  RegE D I d ρ a ∧ RegE D I d ρ b ∧ RelOff d I ρ op a b

mutual
theorem regF_iff {D I d ρ} : ∀ f, RegF D I d ρ f ↔ ForAtoms (RegR D I d ρ) (fun _ => True)
    (fun vs g => Matrix g ∧ DefF D I ρ (.all vs g) ∧ OffUnder d I ρ vs g) f
  | .ff => Iff.rfl
  | .tt => Iff.rfl
  | .bvar _ => Iff.rfl
  | .rel _ _ _ => Iff.rfl
  | .conj fs => regFs_iff fs
  | .disj fs => regFs_iff fs
  | .neg f => regF_iff f
  | .all _ _ => Iff.rfl
theorem regFs_iff {D I d ρ} : ∀ fs,
    RegFs D I d ρ fs ↔ ForAtomsL (RegR D I d ρ) (fun _ => True)
      (fun vs g => Matrix g ∧ DefF D I ρ (.all vs g) ∧ OffUnder d I ρ vs g) fs
  | [] => Iff.rfl
  | f :: fs => and_congr (regF_iff f) (regFs_iff fs)
end

theorem wfFs_mem {V fs} : WfFs V fs ↔ ∀ f ∈ fs, WfF V f := by
  rw [wfFs_iff, forAtomsL_iff]; exact forall₂_congr fun f _ => (wfF_iff f).symm

theorem regFs_mem {D I d ρ fs} : RegFs D I d ρ fs ↔ ∀ f ∈ fs, RegF D I d ρ f := by
  rw [regFs_iff, forAtomsL_iff]; simp only [regF_iff]

section
variable {V : Variable → Prop} {D : Dom} {I : Interp} {d : Dbl} {ρ : Valuation}

theorem wf_notF {f} (h : WfF V f) : WfF V (notF f) := by
  rw [wfF_iff] at *; exact h.notF
theorem wf_andF {f g} (h : WfF V f) (h' : WfF V g) : WfF V (andF f g) := by
  rw [wfF_iff] at *; exact h.andF h'
theorem wf_orF {f g} (h : WfF V f) (h' : WfF V g) : WfF V (orF f g) := by
  rw [wfF_iff] at *; exact h.orF h'
theorem wf_mkConj {fs} (h : ∀ g ∈ fs, WfF V g) : WfF V (mkConj fs) := by
  exact (wfF_iff _).mpr (.mkConj fun g hg => (wfF_iff g).mp (h g hg))
theorem wf_mkDisj {fs} (h : ∀ g ∈ fs, WfF V g) : WfF V (mkDisj fs) := by
  exact (wfF_iff _).mpr (.mkDisj fun g hg => (wfF_iff g).mp (h g hg))
theorem wf_mkRel {op a b} (ha : WfE V a) (hb : WfE V b) : WfF V (mkRel op a b) := by
  rw [wfF_iff]; exact .mkRel ⟨ha, hb⟩

theorem reg_notF {f} (h : RegF D I d ρ f) : RegF D I d ρ (notF f) := by
  rw [regF_iff] at *; exact h.notF
theorem reg_andF {f g} (h : RegF D I d ρ f) (h' : RegF D I d ρ g) : RegF D I d ρ (andF f g) := by
  rw [regF_iff] at *; exact h.andF h'
theorem reg_orF {f g} (h : RegF D I d ρ f) (h' : RegF D I d ρ g) : RegF D I d ρ (orF f g) := by
  rw [regF_iff] at *; exact h.orF h'
theorem reg_mkConj {fs} (h : ∀ g ∈ fs, RegF D I d ρ g) : RegF D I d ρ (mkConj fs) := by
  simp only [regF_iff] at *; exact .mkConj h
theorem reg_mkDisj {fs} (h : ∀ g ∈ fs, RegF D I d ρ g) : RegF D I d ρ (mkDisj fs) := by
  simp only [regF_iff] at *; exact .mkDisj h
theorem reg_mkRel {op a b} (h : RegR D I d ρ op a b) : RegF D I d ρ (mkRel op a b) := by
  rw [regF_iff]; exact .mkRel h

theorem offGap_neg {op : RelOp} {x lo hi} (h : OffGap d op x lo hi) : OffGap d op.neg x lo hi := by
  unfold OffGap at *
  cases op <;> simp_all [RelOp.neg]

theorem regR_neg {op a b} (h : RegR D I d ρ op a b) : RegR D I d ρ op.neg a b := by
  refine ⟨h.1, h.2.1, fun lo hi ex h1 h2 => offGap_neg (h.2.2.1 lo hi ex h1 h2),
    fun lo hi ex h1 h2 => ?_⟩
  have := offGap_neg (h.2.2.2 lo hi ex h1 h2)
  cases op <;> exact this

/-- Equations keep off every gap. -/
theorem relOff_eq {a b} : RelOff d I ρ .eq a b :=
  ⟨fun _ _ _ _ _ => ⟨by simp, by simp⟩, fun _ _ _ _ _ => ⟨by simp [flipRel], by simp [flipRel]⟩⟩

end

mutual
theorem wfE_vars {V} : ∀ e, WfE V e → ∀ v ∈ e.vars, V v
  | .const _, _ => by simp [Expr.vars]
  | .rconst _, _ => by simp [Expr.vars]
  | .var v, h => by simpa [Expr.vars] using h.2
  | .add a b, h => by
    simp only [Expr.vars, List.mem_append]
    rintro v (hv | hv)
    exacts [wfE_vars a h.1 v hv, wfE_vars b h.2 v hv]
  | .mul a b, h => by
    simp only [Expr.vars, List.mem_append]
    rintro v (hv | hv)
    exacts [wfE_vars a h.1 v hv, wfE_vars b h.2 v hv]
  | .app1 f a, h => by simpa only [Expr.vars] using wfE_vars a h
  | .app2 f a b, h => by
    simp only [Expr.vars, List.mem_append]
    rintro v (hv | hv)
    exacts [wfE_vars a h.1 v hv, wfE_vars b h.2 v hv]
  | .ite c a b, h => by
    simp only [Expr.vars, List.mem_append]
    rintro v (hv | hv | hv)
    exacts [wfF_fv c h.1 v hv, wfE_vars a h.2.1 v hv, wfE_vars b h.2.2 v hv]
theorem wfF_fv {V} : ∀ f, WfF V f → ∀ v ∈ f.fv, V v
  | .ff, _ => by simp [Fml.fv]
  | .tt, _ => by simp [Fml.fv]
  | .bvar v, h => by simpa [Fml.fv] using h.2
  | .rel op a b, h => by
    simp only [Fml.fv, List.mem_append]
    rintro v (hv | hv)
    exacts [wfE_vars a h.1 v hv, wfE_vars b h.2 v hv]
  | .conj fs, h => wfFs_fv fs h
  | .disj fs, h => wfFs_fv fs h
  | .neg f, h => wfF_fv f h
  | .all vs f, h => by
    intro v hv
    simp only [Fml.fv, List.mem_filter] at hv
    rcases wfF_fv f h.2 v hv.1 with h1 | h1
    · exact h1
    · simp [h1] at hv
theorem wfFs_fv {V} : ∀ fs, WfFs V fs → ∀ v ∈ Fml.fvList fs, V v
  | [], _ => by simp [Fml.fvList]
  | f :: fs, h => by
    simp only [Fml.fvList, List.mem_append]
    rintro v (hv | hv)
    exacts [wfF_fv f h.1 v hv, wfFs_fv fs h.2 v hv]
end

mutual
theorem wfE_mono {V V' : Variable → Prop} (hV : ∀ v, V v → V' v) : ∀ e, WfE V e → WfE V' e
  | .const _, _ => trivial
  | .rconst _, h => h
  | .var v, h => ⟨h.1, hV v h.2⟩
  | .add a b, h => ⟨wfE_mono hV a h.1, wfE_mono hV b h.2⟩
  | .mul a b, h => ⟨wfE_mono hV a h.1, wfE_mono hV b h.2⟩
  | .app1 f a, h => wfE_mono (V' := V') hV a h
  | .app2 f a b, h => ⟨wfE_mono hV a h.1, wfE_mono hV b h.2⟩
  | .ite c a b, h => ⟨wfF_mono hV c h.1, wfE_mono hV a h.2.1, wfE_mono hV b h.2.2⟩
theorem wfF_mono {V V' : Variable → Prop} (hV : ∀ v, V v → V' v) : ∀ f, WfF V f → WfF V' f
  | .ff, _ => trivial
  | .tt, _ => trivial
  | .bvar v, h => ⟨h.1, hV v h.2⟩
  | .rel op a b, h => ⟨wfE_mono hV a h.1, wfE_mono hV b h.2⟩
  | .conj fs, h => wfFs_mono (V' := V') hV fs h
  | .disj fs, h => wfFs_mono (V' := V') hV fs h
  | .neg f, h => wfF_mono (V' := V') hV f h
  | .all vs f, h => ⟨h.1, wfF_mono (fun v hv => hv.imp (hV v) id) f h.2⟩
theorem wfFs_mono {V V' : Variable → Prop} (hV : ∀ v, V v → V' v) : ∀ fs, WfFs V fs → WfFs V' fs
  | [], _ => trivial
  | f :: fs, h => ⟨wfF_mono hV f h.1, wfFs_mono hV fs h.2⟩
end

mutual
theorem wfE_rc {V : Variable → Prop} : ∀ e, WfE V e → RcOkE e
  | .const _, _ => trivial
  | .rconst _, h => h
  | .var v, h => trivial
  | .add a b, h => ⟨wfE_rc a h.1, wfE_rc b h.2⟩
  | .mul a b, h => ⟨wfE_rc a h.1, wfE_rc b h.2⟩
  | .app1 f a, h => wfE_rc a h
  | .app2 f a b, h => ⟨wfE_rc a h.1, wfE_rc b h.2⟩
  | .ite c a b, h => ⟨wfF_rc c h.1, wfE_rc a h.2.1, wfE_rc b h.2.2⟩
theorem wfF_rc {V : Variable → Prop} : ∀ f, WfF V f → RcOkF f
  | .ff, _ => trivial
  | .tt, _ => trivial
  | .bvar v, h => trivial
  | .rel op a b, h => ⟨wfE_rc a h.1, wfE_rc b h.2⟩
  | .conj fs, h => wfFs_rc fs h
  | .disj fs, h => wfFs_rc fs h
  | .neg f, h => wfF_rc f h
  | .all _ f, h => wfF_rc f h.2
theorem wfFs_rc {V : Variable → Prop} : ∀ fs, WfFs V fs → RcOkFs fs
  | [], _ => trivial
  | f :: fs, h => ⟨wfF_rc f h.1, wfFs_rc fs h.2⟩
end

mutual
theorem regE_def {D I d ρ} : ∀ e, RegE D I d ρ e → DefE D I ρ e
  | .const _, _ => by simp [DefE]
  | .rconst _, h => by simp [DefE]
  | .var v, h => by simp [DefE]
  | .add a b, h => by simp only [DefE]; exact ⟨regE_def a h.1, regE_def b h.2⟩
  | .mul a b, h => by simp only [DefE]; exact ⟨regE_def a h.1, regE_def b h.2⟩
  | .app1 f a, h => by simp only [DefE]; exact ⟨regE_def a h.1, h.2⟩
  | .app2 f a b, h => by simp only [DefE]; exact ⟨regE_def a h.1, regE_def b h.2.1, h.2.2⟩
  | .ite c a b, h => by
    simp only [DefE]
    exact ⟨regF_def c h.1, fun _ => regE_def a h.2.1, fun _ => regE_def b h.2.2⟩
theorem regF_def {D I d ρ} : ∀ f, RegF D I d ρ f → DefF D I ρ f
  | .ff, _ => by simp [DefF]
  | .tt, _ => by simp [DefF]
  | .bvar v, h => by simp [DefF]
  | .rel op a b, h => by simp only [DefF]; exact ⟨regE_def a h.1, regE_def b h.2.1⟩
  | .conj fs, h => by simp only [DefF]; exact regFs_def fs h
  | .disj fs, h => by simp only [DefF]; exact regFs_def fs h
  | .neg f, h => by simp only [DefF]; exact regF_def f h
  | .all _ _, h => h.2.1
theorem regFs_def {D I d ρ} : ∀ fs, RegFs D I d ρ fs → DefFs D I ρ fs
  | [], _ => by simp [DefFs]
  | f :: fs, h => by simp only [DefFs]; exact ⟨regF_def f h.1, regFs_def fs h.2⟩
end

theorem relOff_congr {d I ρ ρ' op a b} (ea : eval I ρ' a = eval I ρ a)
    (eb : eval I ρ' b = eval I ρ b) (h : RelOff d I ρ op a b) : RelOff d I ρ' op a b := by
  refine ⟨fun lo hi ex h1 h2 => ?_, fun lo hi ex h1 h2 => ?_⟩
  · rw [ea]; exact h.1 lo hi ex h1 h2
  · rw [eb]; exact h.2 lo hi ex h1 h2

mutual
theorem offUnder_congr {d I ρ ρ' vs} : ∀ f, (∀ v ∈ f.fv, v ∉ vs → ρ' v = ρ v) →
    OffUnder d I ρ vs f → OffUnder d I ρ' vs f
  | .ff, _, _ => trivial
  | .tt, _, _ => trivial
  | .bvar v, _, _ => trivial
  | .rel op a b, hv, h => by
    simp only [Fml.fv, List.mem_append] at hv
    intro hd op'
    exact relOff_congr
      (eval_congr I a ρ' ρ (fun v h => hv v (.inl h) (hd v (List.mem_append_left _ h))))
      (eval_congr I b ρ' ρ (fun v h => hv v (.inr h) (hd v (List.mem_append_right _ h)))) (h hd op')
  | .conj fs, hv, h => offUnders_congr (ρ' := ρ') fs hv h
  | .disj fs, hv, h => offUnders_congr (ρ' := ρ') fs hv h
  | .neg f, hv, h => offUnder_congr (ρ' := ρ') f hv h
  | .all _ _, _, _ => trivial
theorem offUnders_congr {d I ρ ρ' vs} : ∀ fs, (∀ v ∈ Fml.fvList fs, v ∉ vs → ρ' v = ρ v) →
    OffUnders d I ρ vs fs → OffUnders d I ρ' vs fs
  | [], _, _ => trivial
  | f :: fs, hv, h => by
    simp only [Fml.fvList, List.mem_append] at hv
    exact ⟨offUnder_congr f (fun v h => hv v (.inl h)) h.1,
      offUnders_congr fs (fun v h => hv v (.inr h)) h.2⟩
end

mutual
theorem regE_congr {D I d ρ ρ'} : ∀ e, (∀ v ∈ e.vars, ρ' v = ρ v) → RegE D I d ρ e → RegE D I d ρ' e
  | .const _, _, _ => trivial
  | .rconst _, _, _ => trivial
  | .var v, _, _ => trivial
  | .add a b, hv, h => by
    simp only [Expr.vars, List.mem_append] at hv
    exact ⟨regE_congr a (fun v h => hv v (.inl h)) h.1, regE_congr b (fun v h => hv v (.inr h)) h.2⟩
  | .mul a b, hv, h => by
    simp only [Expr.vars, List.mem_append] at hv
    exact ⟨regE_congr a (fun v h => hv v (.inl h)) h.1, regE_congr b (fun v h => hv v (.inr h)) h.2⟩
  | .app1 f a, hv, h => by
    simp only [Expr.vars] at hv
    refine ⟨regE_congr a hv h.1, ?_⟩
    rw [eval_congr I a ρ' ρ hv]; exact h.2
  | .app2 f a b, hv, h => by
    simp only [Expr.vars, List.mem_append] at hv
    refine ⟨regE_congr a (fun v h => hv v (.inl h)) h.1,
      regE_congr b (fun v h => hv v (.inr h)) h.2.1, ?_⟩
    rw [eval_congr I a ρ' ρ (fun v h => hv v (.inl h)),
      eval_congr I b ρ' ρ (fun v h => hv v (.inr h))]
    exact h.2.2
  | .ite c a b, hv, h => by
    simp only [Expr.vars, List.mem_append] at hv
    exact ⟨regF_congr c (fun v h => hv v (.inl h)) h.1,
      regE_congr a (fun v h => hv v (.inr (.inl h))) h.2.1,
      regE_congr b (fun v h => hv v (.inr (.inr h))) h.2.2⟩
theorem regF_congr {D I d ρ ρ'} : ∀ f, (∀ v ∈ f.fv, ρ' v = ρ v) → RegF D I d ρ f → RegF D I d ρ' f
  | .ff, _, _ => trivial
  | .tt, _, _ => trivial
  | .bvar v, _, _ => trivial
  | .rel op a b, hv, h => by
    simp only [Fml.fv, List.mem_append] at hv
    exact ⟨regE_congr a (fun v h => hv v (.inl h)) h.1,
      regE_congr b (fun v h => hv v (.inr h)) h.2.1,
      relOff_congr (eval_congr I a ρ' ρ (fun v h => hv v (.inl h)))
        (eval_congr I b ρ' ρ (fun v h => hv v (.inr h))) h.2.2⟩
  | .conj fs, hv, h => regFs_congr (ρ' := ρ') fs hv h
  | .disj fs, hv, h => regFs_congr (ρ' := ρ') fs hv h
  | .neg f, hv, h => regF_congr (ρ' := ρ') f hv h
  | .all vs f, hv, h => by
    refine ⟨h.1, (defF_congr D I _ ρ' ρ hv).mpr h.2.1, offUnder_congr f (fun v h1 h2 => hv v ?_) h.2.2⟩
    simp [Fml.fv, h1, h2]
theorem regFs_congr {D I d ρ ρ'} : ∀ fs, (∀ v ∈ Fml.fvList fs, ρ' v = ρ v) →
    RegFs D I d ρ fs → RegFs D I d ρ' fs
  | [], _, _ => trivial
  | f :: fs, hv, h => by
    simp only [Fml.fvList, List.mem_append] at hv
    exact ⟨regF_congr f (fun v h => hv v (.inl h)) h.1, regFs_congr fs (fun v h => hv v (.inr h)) h.2⟩
end

/-! ### Under a quantifier -/

/-- A comparison under a quantifier over `vs`. -/
def WfQ (V : Variable → Prop) (vs : List Variable) (a b : Expr) : Prop :=
  (WfE (fun v => V v ∨ v ∈ vs) a ∧ WfE (fun v => V v ∨ v ∈ vs) b) ∧ IteFreeE a ∧ IteFreeE b

mutual
theorem matrix_wf {V} : ∀ f, (Matrix f ∧ WfF V f) ↔
    Body (fun a b => (WfE V a ∧ WfE V b) ∧ IteFreeE a ∧ IteFreeE b) f
  | .ff => ⟨fun _ => trivial, fun _ => ⟨trivial, trivial⟩⟩
  | .tt => ⟨fun _ => trivial, fun _ => ⟨trivial, trivial⟩⟩
  | .bvar v => ⟨fun h => h.1, fun h => absurd h id⟩
  | .rel op a b => ⟨fun h => ⟨h.2, h.1⟩, fun h => ⟨h.2, h.1⟩⟩
  | .conj fs => matrices_wf fs
  | .disj fs => matrices_wf fs
  | .neg f => matrix_wf f
  | .all _ _ => ⟨fun h => h.1, fun h => absurd h id⟩
theorem matrices_wf {V} : ∀ fs, (Matrices fs ∧ WfFs V fs) ↔
    ForAtomsL (fun _ a b => (WfE V a ∧ WfE V b) ∧ IteFreeE a ∧ IteFreeE b) (fun _ => False) NoQ fs
  | [] => ⟨fun _ => trivial, fun _ => ⟨trivial, trivial⟩⟩
  | f :: fs => ⟨fun h => ⟨(matrix_wf f).mp ⟨h.1.1, h.2.1⟩, (matrices_wf fs).mp ⟨h.1.2, h.2.2⟩⟩,
      fun h => ⟨⟨((matrix_wf f).mpr h.1).1, ((matrices_wf fs).mpr h.2).1⟩,
        ((matrix_wf f).mpr h.1).2, ((matrices_wf fs).mpr h.2).2⟩⟩
end

/-- A comparison under a quantifier over `vs` is regular. -/
def RegQ (D : Dom) (I : Interp) (d : Dbl) (ρ : Valuation) (vs : List Variable) (a b : Expr) : Prop :=
  (IteFreeE a ∧ IteFreeE b) ∧
  (∀ σ : Valuation, (∀ v, v ∉ vs → σ v = ρ v) → (∀ v ∈ vs, typeOk v.type (σ v)) →
    DefE D I σ a ∧ DefE D I σ b) ∧
  ((∀ v ∈ a.vars ++ b.vars, v ∉ vs) → ∀ op, RelOff d I ρ op a b)

mutual
theorem matrix_reg {D I d ρ vs} : ∀ f, (Matrix f ∧ DefF D I ρ (.all vs f) ∧ OffUnder d I ρ vs f) ↔
    Body (RegQ D I d ρ vs) f
  | .ff => ⟨fun _ => trivial, fun _ => ⟨trivial, by simp [DefF], trivial⟩⟩
  | .tt => ⟨fun _ => trivial, fun _ => ⟨trivial, by simp [DefF], trivial⟩⟩
  | .bvar v => ⟨fun h => h.1, fun h => absurd h id⟩
  | .rel op a b => by
    simp only [DefF]
    exact Iff.rfl
  | .conj fs => by
    have := matrices_reg (D := D) (I := I) (d := d) (ρ := ρ) (vs := vs) fs
    simp only [DefF] at *
    exact this
  | .disj fs => by
    have := matrices_reg (D := D) (I := I) (d := d) (ρ := ρ) (vs := vs) fs
    simp only [DefF] at *
    exact this
  | .neg f => by
    have := matrix_reg (D := D) (I := I) (d := d) (ρ := ρ) (vs := vs) f
    simp only [DefF] at *
    exact this
  | .all _ _ => ⟨fun h => h.1, fun h => absurd h id⟩
theorem matrices_reg {D I d ρ vs} : ∀ fs, (Matrices fs ∧
    (∀ ρ' : Valuation, (∀ v, v ∉ vs → ρ' v = ρ v) → (∀ v ∈ vs, typeOk v.type (ρ' v)) →
      DefFs D I ρ' fs) ∧ OffUnders d I ρ vs fs) ↔
    ForAtomsL (fun _ a b => RegQ D I d ρ vs a b) (fun _ => False) NoQ fs
  | [] => ⟨fun _ => trivial, fun _ => ⟨trivial, by simp [DefFs], trivial⟩⟩
  | f :: fs => by
    have h1 := matrix_reg (D := D) (I := I) (d := d) (ρ := ρ) (vs := vs) f
    have h2 := matrices_reg (D := D) (I := I) (d := d) (ρ := ρ) (vs := vs) fs
    simp only [ForAtomsL, ← h1, ← h2, Matrices, OffUnders, DefF, DefFs]
    constructor
    · rintro ⟨⟨a1, a2⟩, a3, a4, a5⟩
      exact ⟨⟨a1, fun σ x y => (a3 σ x y).1, a4⟩, a2, fun σ x y => (a3 σ x y).2, a5⟩
    · rintro ⟨⟨a1, a2, a3⟩, a4, a5, a6⟩
      exact ⟨⟨a1, a4⟩, fun σ x y => ⟨a2 σ x y, a5 σ x y⟩, a3, a6⟩
end

theorem wfE_of_vars {V V' : Variable → Prop} : ∀ e, IteFreeE e → WfE V e →
    (∀ v ∈ e.vars, V v → V' v) → WfE V' e
  | .const _, _, _, _ => trivial
  | .rconst _, _, h, _ => h
  | .var v, _, h, hv => ⟨h.1, hv v (by simp [Expr.vars]) h.2⟩
  | .add a b, i, h, hv => by
    simp only [Expr.vars, List.mem_append] at hv
    exact ⟨wfE_of_vars a i.1 h.1 (fun v h => hv v (.inl h)),
      wfE_of_vars b i.2 h.2 (fun v h => hv v (.inr h))⟩
  | .mul a b, i, h, hv => by
    simp only [Expr.vars, List.mem_append] at hv
    exact ⟨wfE_of_vars a i.1 h.1 (fun v h => hv v (.inl h)),
      wfE_of_vars b i.2 h.2 (fun v h => hv v (.inr h))⟩
  | .app1 f a, i, h, hv => wfE_of_vars (V' := V') a i h hv
  | .app2 f a b, i, h, hv => by
    simp only [Expr.vars, List.mem_append] at hv
    exact ⟨wfE_of_vars a i.1 h.1 (fun v h => hv v (.inl h)),
      wfE_of_vars b i.2 h.2 (fun v h => hv v (.inr h))⟩
  | .ite _ _ _, i, _, _ => absurd i id

theorem wfQ_ok {V} : QOk (fun _ a b => (WfE V a ∧ WfE V b) ∧ IteFreeE a ∧ IteFreeE b) (WfQ V) := by
  refine ⟨fun vs vs' a b h hv _ => ⟨⟨?_, ?_⟩, h.2⟩, fun vs op a b h hv => ⟨⟨?_, ?_⟩, h.2⟩⟩
  · exact wfE_of_vars a h.2.1 h.1.1 fun v h1 h2 => h2.imp id (hv v (List.mem_append_left _ h1))
  · exact wfE_of_vars b h.2.2 h.1.2 fun v h1 h2 => h2.imp id (hv v (List.mem_append_right _ h1))
  · exact wfE_of_vars a h.2.1 h.1.1 fun v h1 h2 =>
      h2.resolve_right (hv v (List.mem_append_left _ h1))
  · exact wfE_of_vars b h.2.2 h.1.2 fun v h1 h2 =>
      h2.resolve_right (hv v (List.mem_append_right _ h1))

theorem typeOk_zero (t : VType) : typeOk t 0 := by
  cases t
  · trivial
  · exact ⟨0, by simp⟩
  · exact .inl rfl
  · exact .inl rfl

theorem regE_of_def {D I d ρ} : ∀ e, IteFreeE e → DefE D I ρ e → RegE D I d ρ e
  | .const _, _, _ => trivial
  | .rconst _, _, _ => trivial
  | .var v, _, _ => trivial
  | .add a b, i, h => by
    simp only [DefE] at h
    exact ⟨regE_of_def a i.1 h.1, regE_of_def b i.2 h.2⟩
  | .mul a b, i, h => by
    simp only [DefE] at h
    exact ⟨regE_of_def a i.1 h.1, regE_of_def b i.2 h.2⟩
  | .app1 f a, i, h => by
    simp only [DefE] at h
    exact ⟨regE_of_def a i h.1, h.2⟩
  | .app2 f a b, i, h => by
    simp only [DefE] at h
    exact ⟨regE_of_def a i.1 h.1, regE_of_def b i.2 h.2.1, h.2.2⟩
  | .ite _ _ _, i, _ => absurd i id

open Classical in
theorem regQ_ok {D I d ρ} : QOk (RegR D I d ρ) (RegQ D I d ρ) := by
  refine ⟨fun vs vs' a b h hv hs => ⟨h.1, fun σ h1 h2 => ?_, fun hd => h.2.2 fun v h1 h2 =>
    hd v h1 (hv v h1 h2)⟩, fun vs op a b h hv => ?_⟩
  · have := h.2.1 (fun v => if v ∈ vs ∧ v ∉ vs' then 0 else σ v) (fun v hn => ?_) (fun v hm => ?_)
    · have e : ∀ v ∈ a.vars ++ b.vars, (if v ∈ vs ∧ v ∉ vs' then 0 else σ v) = σ v := fun v h1 =>
        if_neg fun h2 => h2.2 (hv v h1 h2.1)
      exact ⟨(defE_congr D I a _ _ fun v h => e v (List.mem_append_left _ h)).mp this.1,
        (defE_congr D I b _ _ fun v h => e v (List.mem_append_right _ h)).mp this.2⟩
    · simp only [hn, false_and, if_false]
      exact h1 v fun h => hn (hs v h)
    · simp only [hm, true_and]
      split
      · exact typeOk_zero _
      · rename_i h; exact h2 v (not_not.mp h)
  · have := h.2.1 (fun v => if v ∈ vs then 0 else ρ v) (fun v hn => if_neg hn)
      (fun v hm => by simp only [hm, if_true]; exact typeOk_zero _)
    have e : ∀ v ∈ a.vars ++ b.vars, (if v ∈ vs then 0 else ρ v) = ρ v := fun v h1 =>
      if_neg (hv v h1)
    exact ⟨regE_of_def a h.1.1
        ((defE_congr D I a _ _ fun v h => e v (List.mem_append_left _ h)).mp this.1),
      regE_of_def b h.1.2
        ((defE_congr D I b _ _ fun v h => e v (List.mem_append_right _ h)).mp this.2),
      h.2.2 hv op⟩

theorem QOk.and {P P' : RelOp → Expr → Expr → Prop} {q q' : List Variable → Expr → Expr → Prop}
    (h : QOk P q) (h' : QOk P' q') :
    QOk (fun op a b => P op a b ∧ P' op a b) (fun vs a b => q vs a b ∧ q' vs a b) :=
  ⟨fun vs vs' a b hq h1 h2 => ⟨h.shrink vs vs' a b hq.1 h1 h2, h'.shrink vs vs' a b hq.2 h1 h2⟩,
    fun vs op a b hq h1 => ⟨h.drop vs op a b hq.1 h1, h'.drop vs op a b hq.2 h1⟩⟩

/-! ### Gaps -/

theorem asRel_regR {D I d ρ} : ∀ {f op a b}, RegF D I d ρ f → asRel f = some (op, a, b) →
    RegR D I d ρ op a b
  | .rel _ _ _, _, _, _, h, h' => by simp only [asRel, Option.some.injEq] at h'; cases h'; exact h
  | .neg f, _, _, _, h, h' => by
    simp only [asRel, Option.map_eq_some_iff] at h'
    obtain ⟨⟨op, a, b⟩, h1, h2⟩ := h'
    cases h2
    exact regR_neg (asRel_regR (f := f) h h1)
  | .ff, _, _, _, _, h' => by simp [asRel] at h'
  | .tt, _, _, _, _, h' => by simp [asRel] at h'
  | .bvar _, _, _, _, _, h' => by simp [asRel] at h'
  | .conj _, _, _, _, _, h' => by simp [asRel] at h'
  | .disj _, _, _, _, _, h' => by simp [asRel] at h'
  | .all _ _, _, _, _, _, h' => by simp [asRel] at h'

theorem regF_noGap {D I d ρ f} (h : RegF D I d ρ f) : NoGap d ρ f := by
  intro v op lo hi ex hb ht
  unfold asBound at hb
  split at hb
  · rename_i op' v' e he
    obtain ⟨n, hn, hb⟩ := Option.map_eq_some_iff.mp hb
    cases hb
    have := (asRel_regR h he).2.2.1 lo hi ex hn ht
    simp only [eval] at this
    exact ⟨fun h => this.1 (.inl h), fun h => this.2 (.inl h)⟩
  · rename_i op' e v' _ he
    obtain ⟨n, hn, hb⟩ := Option.map_eq_some_iff.mp hb
    cases hb
    have := (asRel_regR h he).2.2.2 lo hi ex hn ht
    simp only [eval] at this
    exact ⟨fun h => this.1 (.inl h), fun h => this.2 (.inl h)⟩
  · cases hb

end Verif.Proof
