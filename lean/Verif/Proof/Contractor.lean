import Verif.Spec.Contractor
import Verif.Proof.Eval
import Verif.Proof.Nnf

/-!
# Closure of pruning under relations between statuses, and soundness of pruning
-/

namespace Verif.Proof
open Verif Verif.Model Verif.Spec

/-- Every successful call of `p` is related by `R`. -/
def Closed (R : CStatus → CStatus → Prop) (p : Pruner) : Prop := ∀ s s', p s = .ok s' → R s s'

/-- A preorder on statuses that clearing the output bits respects. -/
structure PreR (R : CStatus → CStatus → Prop) : Prop where
  refl : ∀ s, R s s
  trans : ∀ s t u, R s t → R t u → R s u
  reset : ∀ s, R s { s with output := [] }

theorem bindR_ok {α β : Type} {x : Run α} {f : α → Run β} {b : β} (h : (x >>= f) = .ok b) :
    ∃ a, x = .ok a ∧ f a = .ok b := by
  cases x with
  | ok a => exact ⟨a, rfl, h⟩
  | throw => cases h
  | ub => cases h
  | oof => cases h

theorem seqRun_closed {R} (pre : PreR R) : ∀ {ps : List Pruner}, (∀ p ∈ ps, Closed R p) →
    Closed R (seqRun ps)
  | [], _, s, s', h => by
    simp only [seqRun, Run.ok.injEq] at h; subst h; exact pre.refl _
  | p :: ps, hp, s, s', h => by
    simp only [seqRun] at h
    obtain ⟨t, h1, h2⟩ := bindR_ok h
    have r1 := hp p (by simp) s t h1
    split at h2
    · simp only [Run.ok.injEq] at h2; subst h2; exact r1
    · exact pre.trans _ _ _ r1
        (seqRun_closed pre (fun q hq => hp q (by simp [hq])) t s' h2)

theorem fixLoop_closed {R} (pre : PreR R) {term} {ps : List Pruner}
    (hp : ∀ p ∈ ps, Closed R p) : ∀ n, Closed R (fixLoop term ps n)
  | 0, s, s', h => by simp [fixLoop] at h
  | n + 1, s, s', h => by
    simp only [fixLoop] at h
    obtain ⟨t, h1, h2⟩ := bindR_ok h
    have r1 := seqRun_closed pre hp s t h1
    split at h2
    · simp only [Run.ok.injEq] at h2; subst h2; exact r1
    · split at h2
      · simp only [Run.ok.injEq] at h2; subst h2; exact r1
      · exact pre.trans _ _ _ r1 (fixLoop_closed pre hp n t s' h2)

theorem getD_closed {R} {ps : List Pruner} (hp : ∀ p ∈ ps, Closed R p) (j : Nat) :
    Closed R (ps.getD j fun _ => .ub) := by
  rw [List.getD_eq_getElem?_getD]
  cases h : ps[j]? with
  | none => intro s s' hs; simp at hs
  | some p => exact hp p (List.mem_of_getElem? h)

theorem wlFill_closed {R} (pre : PreR R) {ps : List Pruner} {inputs}
    (hp : ∀ p ∈ ps, Closed R p) : ∀ (js : List Nat) (s : CStatus) (wl : Nat → Bool)
      (r : CStatus × (Nat → Bool)), wlFill ps inputs js s wl = .ok r → R s r.1
  | [], s, wl, r, h => by
    simp only [wlFill, Run.ok.injEq] at h; subst h; exact pre.refl _
  | j :: js, s, wl, r, h => by
    simp only [wlFill] at h
    obtain ⟨t, h1, h2⟩ := bindR_ok h
    have r1 := pre.trans _ _ _ (pre.reset s) (getD_closed hp j _ t h1)
    split at h2
    · simp only [Run.ok.injEq] at h2; subst h2; exact r1
    · exact pre.trans _ _ _ r1 (wlFill_closed pre hp js t _ r h2)

theorem wlLoop_closed {R} (pre : PreR R) {ps : List Pruner} {inputs}
    (hp : ∀ p ∈ ps, Closed R p) : ∀ (n j : Nat) (s : CStatus) (wl : Nat → Bool) (s' : CStatus),
      wlLoop ps inputs n j s wl = .ok s' → R s s'
  | 0, j, s, wl, s', h => by simp [wlLoop] at h
  | n + 1, j, s, wl, s', h => by
    simp only [wlLoop] at h
    obtain ⟨t, h1, h2⟩ := bindR_ok h
    have r1 := pre.trans _ _ _ (pre.reset s) (getD_closed hp j _ t h1)
    split at h2
    · simp only [Run.ok.injEq] at h2; subst h2; exact r1
    · split at h2
      · exact pre.trans _ _ _ r1 (wlLoop_closed pre hp n _ t _ s' h2)
      · split at h2
        · exact pre.trans _ _ _ r1 (wlLoop_closed pre hp n _ t _ s' h2)
        · simp only [Run.ok.injEq] at h2; subst h2; exact r1

theorem wlRun_closed {R} (pre : PreR R) {term} {ps : List Pruner} {inputs}
    (hp : ∀ p ∈ ps, Closed R p) (n : Nat) : Closed R (wlRun term ps inputs n) := by
  intro s s' h
  simp only [wlRun] at h
  obtain ⟨r, h1, h2⟩ := bindR_ok h
  have r1 := wlFill_closed pre hp _ s _ r h1
  split at h2
  · simp only [Run.ok.injEq] at h2; subst h2; exact r1
  · split at h2
    · simp only [Run.ok.injEq] at h2; subst h2; exact r1
    · split at h2
      · simp only [Run.ok.injEq] at h2; subst h2; exact r1
      · exact pre.trans _ _ _ r1 (wlLoop_closed pre hp n _ _ _ s' h2)

mutual
/-- `P` holds of all atoms and there is no join. -/
def AllAtoms (P : Ctc → Prop) : Ctc → Prop
  | .seq cs => AllAtomsL P cs
  | .join _ => False
  | .fixpoint cs => AllAtomsL P cs
  | .worklist cs => AllAtomsL P cs
  | c => P c
def AllAtomsL (P : Ctc → Prop) : List Ctc → Prop
  | [] => True
  | c :: cs => AllAtoms P c ∧ AllAtomsL P cs
end

mutual
theorem prune_closed {R} (pre : PreR R) {ib : Ibex} {n : Nat} : ∀ c : Ctc,
    AllAtoms (fun a => Closed R (prune ib n a)) c → Closed R (prune ib n c)
  | .id, h => h
  | .integer _, h => h
  | .seq cs, h => by
    simp only [prune]; exact seqRun_closed pre (prunes_closed pre cs h)
  | .join _, h => h.elim
  | .fixpoint cs, h => by
    simp only [prune]; exact fixLoop_closed pre (prunes_closed pre cs h) n
  | .worklist cs, h => by
    simp only [prune]; exact wlRun_closed pre (prunes_closed pre cs h) n
  | .fwdbwd _ _ _, h => h
  | .polytope _ _ _, h => h
  | .forallC _ _, h => h
theorem prunes_closed {R} (pre : PreR R) {ib : Ibex} {n : Nat} : ∀ cs : List Ctc,
    AllAtomsL (fun a => Closed R (prune ib n a)) cs → ∀ p ∈ prunes ib n cs, Closed R p
  | [], _, p, hp => by simp [prunes] at hp
  | c :: cs, h, p, hp => by
    simp only [prunes, List.mem_cons] at hp
    rcases hp with rfl | hp
    · exact prune_closed pre c h.1
    · exact prunes_closed pre cs h.2 p hp
end

/-! ### Conversion to IBEX constraints -/

theorem bindO_ok {α β : Type} {x : Outcome α} {f : α → Outcome β} {b : β}
    (h : (x >>= f) = .ok b) : ∃ a, x = .ok a ∧ f a = .ok b := by
  cases x with
  | ok a => exact ⟨a, rfl, h⟩
  | throw => cases h
  | ub => cases h

theorem ibexExprOk_vars {vs : List Variable} : ∀ (e : Expr), ibexExprOk vs e = true →
    ∀ v ∈ e.vars, v ∈ vs
  | .const _, _, v, hv => by simp [Expr.vars] at hv
  | .rconst _, _, v, hv => by simp [Expr.vars] at hv
  | .var w, h, v, hv => by
    simp only [Expr.vars, List.mem_singleton] at hv; subst hv; simpa [ibexExprOk] using h
  | .add a b, h, v, hv => by
    simp only [ibexExprOk, Bool.and_eq_true] at h
    simp only [Expr.vars, List.mem_append] at hv
    exact hv.elim (ibexExprOk_vars a h.1 v) (ibexExprOk_vars b h.2 v)
  | .mul a b, h, v, hv => by
    simp only [ibexExprOk, Bool.and_eq_true] at h
    simp only [Expr.vars, List.mem_append] at hv
    exact hv.elim (ibexExprOk_vars a h.1 v) (ibexExprOk_vars b h.2 v)
  | .app1 _ a, h, v, hv => by
    simp only [ibexExprOk] at h
    simp only [Expr.vars] at hv
    exact ibexExprOk_vars a h v hv
  | .app2 _ a b, h, v, hv => by
    simp only [ibexExprOk, Bool.and_eq_true] at h
    simp only [Expr.vars, List.mem_append] at hv
    exact hv.elim (ibexExprOk_vars a h.1 v) (ibexExprOk_vars b h.2 v)
  | .ite _ _ _, h, _, _ => by simp [ibexExprOk] at h

theorem mkCtr_ok {vs op e c} (h : mkCtr vs op e = .ok (some c)) :
    c = ⟨op, e⟩ ∧ ∀ v ∈ e.vars, v ∈ vs := by
  unfold mkCtr at h
  split at h
  · rename_i hc
    simp only [Outcome.ok.injEq, Option.some.injEq] at h
    exact ⟨h.symm, ibexExprOk_vars e hc⟩
  · cases h

/-- A constraint made from `f`: its expression is `lhs - rhs`, and it holds wherever `f` does. -/
theorem ibexConv_spec {vs : List Variable} : ∀ (f : Fml) (pol : Bool) (c : Ctr),
    ibexConv vs pol f = .ok (some c) → ∃ op a b, asRel f = some (op, a, b) ∧ c.e = a.sub b ∧
      c.op = (if pol then op else op.neg) ∧ (∀ v ∈ c.e.vars, v ∈ vs)
  | .ff, pol, c, h => by simp [ibexConv] at h
  | .tt, pol, c, h => by simp [ibexConv] at h
  | .bvar _, pol, c, h => by simp [ibexConv] at h
  | .conj _, pol, c, h => by simp [ibexConv] at h
  | .disj _, pol, c, h => by simp [ibexConv] at h
  | .all _ _, pol, c, h => by simp [ibexConv] at h
  | .neg f, pol, c, h => by
    simp only [ibexConv] at h
    obtain ⟨op, a, b, h1, h2, h3, h4⟩ := ibexConv_spec f (!pol) c h
    refine ⟨op.neg, a, b, by simp [asRel, h1], h2, ?_, h4⟩
    rw [h3]
    cases pol <;> cases op <;> simp [RelOp.neg]
  | .rel op a b, pol, c, h => by
    refine ⟨op, a, b, rfl, ?_⟩
    cases op <;> cases pol <;> simp only [ibexConv] at h <;> (try (simp at h; done)) <;>
      (obtain ⟨rfl, hv⟩ := mkCtr_ok (by simpa using h); exact ⟨rfl, rfl, hv⟩)

theorem ibexConv_holds {D : Dom} {I : Interp} {ρ : Valuation} {vs : List Variable} {f : Fml}
    {c : Ctr} (h : ibexConv vs true f = .ok (some c)) :
    (holds I ρ f ↔ relSem c.op (eval I ρ c.e) 0) ∧ (DefF D I ρ f ↔ DefE D I ρ c.e) ∧
    (RcOkF f ↔ RcOkE c.e) ∧ (∀ v, v ∈ c.e.vars ↔ v ∈ f.fv) ∧ (∀ v ∈ c.e.vars, v ∈ vs) := by
  obtain ⟨op, a, b, h1, h2, h3, h4⟩ := ibexConv_spec f true c h
  simp only [if_true] at h3
  refine ⟨?_, ?_, ?_, ?_, h4⟩
  · rw [asRel_holds h1, h2, h3, eval_sub', ← relSem_sub]
  · rw [asRel_def h1, h2]; simp [Expr.sub, DefE]
  · rw [asRel_rc h1, h2]; simp [Expr.sub, RcOkE]
  · intro v; rw [h2, sub_vars, asRel_fv h1]

theorem polyCtrs_mem {vs : List Variable} : ∀ {fs : List Fml} {cs : List Ctr},
    polyCtrs vs fs = .ok cs → ∀ c ∈ cs, ∃ f ∈ fs, ibexConv vs true f = .ok (some c)
  | [], cs, h, c, hc => by simp only [polyCtrs, Outcome.ok.injEq] at h; subst h; cases hc
  | f :: fs, cs, h, c, hc => by
    simp only [polyCtrs] at h
    split at h
    · obtain ⟨g, hg, h1⟩ := polyCtrs_mem h c hc
      exact ⟨g, by simp [hg], h1⟩
    · obtain ⟨o, ho, h2⟩ := bindO_ok h
      obtain ⟨cs', hcs, h3⟩ := bindO_ok h2
      cases o with
      | none =>
        simp only [Outcome.ok.injEq] at h3; subst h3
        obtain ⟨g, hg, h1⟩ := polyCtrs_mem hcs c hc
        exact ⟨g, by simp [hg], h1⟩
      | some d =>
        simp only [Outcome.ok.injEq] at h3; subst h3
        rcases List.mem_cons.mp hc with rfl | hc
        · exact ⟨f, by simp, ho⟩
        · obtain ⟨g, hg, h1⟩ := polyCtrs_mem hcs c hc
          exact ⟨g, by simp [hg], h1⟩

/-! ### Soundness -/

/-- The box keeps its variables and its shape. -/
def Shape (vs : List Variable) (b : Box) : Prop := b.vars = vs ∧ BoxWf b

/-- Pruning returns a sub-box. -/
def SubR (vs : List Variable) (s s' : CStatus) : Prop :=
  Shape vs s.box → Shape vs s'.box ∧ SubBox s'.box s.box

theorem subBox_refl (b : Box) : SubBox b b := fun h => ⟨h, fun _ _ x => x⟩

theorem subBox_trans {a b c : Box} (h1 : SubBox a b) (h2 : SubBox b c) : SubBox a c := fun h =>
  ⟨(h2 (h1 h).1).1, fun i x hx => (h2 (h1 h).1).2 i x ((h1 h).2 i x hx)⟩

theorem subBox_in {a b : Box} (h : SubBox a b) (hv : a.vars = b.vars) {ρ} (hρ : InBox ρ a) :
    InBox ρ b := ⟨(h hρ.1).1, fun i v hi => (h hρ.1).2 i _ (hρ.2 i v (hv ▸ hi))⟩

theorem subBox_setEmpty (b c : Box) : SubBox b.setEmpty c := fun h => by
  simp [Box.setEmpty] at h

/-- Pruning does not lose the point `ρ`. -/
def KeepR (vs : List Variable) (ρ : Valuation) (s s' : CStatus) : Prop :=
  Shape vs s.box → Shape vs s'.box ∧ (InBox ρ s.box → InBox ρ s'.box)

theorem subR_pre (vs) : PreR (SubR vs) where
  refl := fun _ h => ⟨h, subBox_refl _⟩
  trans := fun _ _ _ h1 h2 h => ⟨(h2 (h1 h).1).1, subBox_trans (h2 (h1 h).1).2 (h1 h).2⟩
  reset := fun _ h => ⟨h, subBox_refl _⟩

theorem keepR_pre (vs ρ) : PreR (KeepR vs ρ) where
  refl := fun _ h => ⟨h, fun x => x⟩
  trans := fun _ _ _ h1 h2 h => ⟨(h2 (h1 h).1).1, fun x => (h2 (h1 h).1).2 ((h1 h).2 x)⟩
  reset := fun _ h => ⟨h, fun x => x⟩

@[simp] theorem addUsed_box (s : CStatus) (f : Fml) : (s.addUsed f).box = s.box := rfl
@[simp] theorem addWitness_box (s : CStatus) (v : Variable) : (s.addWitness v).box = s.box := rfl
@[simp] theorem addUseds_box : ∀ (fs : List Fml) (s : CStatus), (s.addUseds fs).box = s.box
  | [], _ => rfl
  | f :: fs, s => by simp [CStatus.addUseds, addUseds_box fs]

/-- The box after the backward contraction, whatever is recorded in the status. -/
theorem fwdbwd_box {ib : Ibex} {vs f c s s'} (h : fwdbwdRun ib vs f c s = .ok s') :
    s'.box = (posBwd ib vs c s.box).2 := by
  unfold fwdbwdRun at h
  simp only at h
  split at h
  · simp only [Run.ok.injEq] at h; subst h; rfl
  · split at h
    · simp only [Run.ok.injEq] at h; subst h; rfl
    · split at h
      · simp only [Run.ok.injEq] at h; subst h; rfl
      · simp only [Run.ok.injEq] at h; subst h; rfl

theorem padTo_self {n : Nat} {l : List Itv} (h : l.length = n) : padTo n l = l := by
  subst h
  unfold padTo
  rw [Nat.sub_self, List.replicate_zero, List.append_nil, List.take_length]

/-- A contractor built for the variables of the box. -/
theorem posBwd_self {D I ib} (ok : IbexSound D I ib) {c} {b : Box} (wf : BoxWf b) :
    posBwd ib b.vars c b = ib.bwd c b := by
  obtain ⟨s1, s2⟩ := ok.bwd_shape c b
  simp only [posBwd, padTo_self wf.1]
  rw [List.drop_eq_nil_of_le (by rw [wf.1]), List.append_nil, List.take_of_length_le (by rw [s2])]
  refine Prod.ext rfl ?_
  show (⟨b.vars, _, _⟩ : Box) = _
  conv_lhs => rw [← s1]
  rw [s1]
  show (⟨_, (ib.bwd c b).2.vals, (ib.bwd c b).2.bot⟩ : Box) = _
  rw [← s1]

theorem polytope_box {ib : Ibex} {vs fs cs s s'} (h : polytopeRun ib vs fs cs s = .ok s') :
    vs.length = s.box.vals.length ∧
    s'.box = { s.box with vals := (ib.poly cs ⟨vs, s.box.vals, s.box.bot⟩).vals
                          bot := (ib.poly cs ⟨vs, s.box.vals, s.box.bot⟩).bot } := by
  unfold polytopeRun at h
  split at h
  · cases h
  · rename_i hl
    refine ⟨by simpa using hl, ?_⟩
    simp only at h
    split at h
    · simp only [Run.ok.injEq] at h; subst h; simp
    · split at h
      · simp only [Run.ok.injEq] at h; subst h; rfl
      · simp only [Run.ok.injEq] at h; subst h; simp

theorem setEmpty_not_in {b : Box} {ρ} : ¬ InBox ρ b.setEmpty := fun h => by
  have := h.1; simp [Box.setEmpty] at this

theorem box_eta (b : Box) : (⟨b.vars, b.vals, b.bot⟩ : Box) = b := rfl

/-- Rounding one integer coordinate inwards. -/
theorem integer_step {b : Box} (wf : BoxWf b) {i : Nat} {v : Variable} (hv : b.vars[i]? = some v) :
    SubBox (b.set i ⟨(b.get i).lb.ceil, (b.get i).ub.floor⟩) b ∧
    (∀ ρ, (v.type = .integer ∨ v.type = .binary) → typeOk v.type (ρ v) → InBox ρ b →
      InBox ρ (b.set i ⟨(b.get i).lb.ceil, (b.get i).ub.floor⟩) ∧
      (b.get i).lb.ceil ≤ (b.get i).ub.floor) := by
  constructor
  · refine fun h => ⟨h, fun j x hx => ?_⟩
    by_cases hj : i = j
    · subst hj
      rw [get_set_self (by rw [wf.1]; exact lt_of_getElem? hv)] at hx
      exact in_mono (le_ceil _) (floor_le _) hx
    · rwa [get_set_ne hj] at hx
  · intro ρ ht hty h
    obtain ⟨n, hn⟩ := integral_of_typeOk ht hty
    have hi : InItv (ρ v) (b.get i) := h.2 i v hv
    rw [hn] at hi
    have h2 : InItv ((n : ℤ) : ℝ) ⟨(b.get i).lb.ceil, (b.get i).ub.floor⟩ :=
      ⟨below_ceil hi.1, above_floor hi.2⟩
    refine ⟨?_, below_le_above h2.1 h2.2⟩
    rw [in_set wf hv]
    rw [in_box_split hv] at h
    exact ⟨h.1, hn ▸ h2, h.2.2⟩

theorem integerLoop_sub {vs} : ∀ {is : List Nat},
    (∀ i ∈ is, ∃ v, vs[i]? = some v ∧ (v.type = .integer ∨ v.type = .binary)) →
    Closed (SubR vs) (integerLoop is)
  | [], _, s, s', h => by
    simp only [integerLoop, Run.ok.injEq] at h; subst h; exact (subR_pre vs).refl _
  | i :: is, hi, s, s', h => by
    intro hs
    obtain ⟨v, hv, ht⟩ := hi i (by simp)
    have hv' : s.box.vars[i]? = some v := by rw [hs.1]; exact hv
    have ih := fun t t' => integerLoop_sub (vs := vs) (is := is)
      (fun j hj => hi j (by simp [hj])) t t'
    simp only [integerLoop] at h
    split at h
    · exact ih _ _ h hs
    · split at h
      · split at h
        · obtain ⟨h1, h2⟩ := ih _ _ h ⟨hs.1, set_wf hs.2⟩
          exact ⟨h1, subBox_trans h2 (integer_step hs.2 hv').1⟩
        · rw [hv'] at h
          simp only [Run.ok.injEq] at h; subst h
          exact ⟨hs, subBox_setEmpty _ _⟩
      · exact ih _ _ h hs

theorem integerLoop_keep {vs ρ} (hty : TypedOn ρ vs) : ∀ {is : List Nat},
    (∀ i ∈ is, ∃ v, vs[i]? = some v ∧ (v.type = .integer ∨ v.type = .binary)) →
    Closed (KeepR vs ρ) (integerLoop is)
  | [], _, s, s', h => by
    simp only [integerLoop, Run.ok.injEq] at h; subst h; exact (keepR_pre vs ρ).refl _
  | i :: is, hi, s, s', h => by
    intro hs
    obtain ⟨v, hv, ht⟩ := hi i (by simp)
    have hv' : s.box.vars[i]? = some v := by rw [hs.1]; exact hv
    have hty' : typeOk v.type (ρ v) := hty v (List.mem_of_getElem? hv)
    have ih := fun t t' => integerLoop_keep hty (vs := vs) (ρ := ρ) (is := is)
      (fun j hj => hi j (by simp [hj])) t t'
    simp only [integerLoop] at h
    split at h
    · exact ih _ _ h hs
    · split at h
      · split at h
        · obtain ⟨h1, h2⟩ := ih _ _ h ⟨hs.1, set_wf hs.2⟩
          exact ⟨h1, fun x => h2 ((integer_step hs.2 hv').2 ρ ht hty' x).1⟩
        · rename_i hle
          rw [hv'] at h
          simp only [Run.ok.injEq] at h; subst h
          exact ⟨hs, fun x => absurd ((integer_step hs.2 hv').2 ρ ht hty' x).2 hle⟩
      · exact ih _ _ h hs

theorem fwdbwd_shape {D I ib} (ok : IbexSound D I ib) {vs f c s s'} (hs : Shape vs s.box)
    (h : fwdbwdRun ib vs f c s = .ok s') :
    Shape vs s'.box ∧ s'.box = (ib.bwd c s.box).2 := by
  have hb := fwdbwd_box h
  rw [← hs.1, posBwd_self ok hs.2] at hb
  obtain ⟨s1, s2⟩ := ok.bwd_shape c s.box
  refine ⟨?_, hb⟩
  rw [hb]
  exact ⟨by rw [s1, hs.1], by rw [s2, s1]; exact hs.2.1, by rw [s1]; exact hs.2.2⟩

theorem polytope_shape {D I ib} (ok : IbexSound D I ib) {vs fs cs s s'} (hs : Shape vs s.box)
    (h : polytopeRun ib vs fs cs s = .ok s') :
    Shape vs s'.box ∧ s'.box = ib.poly cs s.box := by
  obtain ⟨hl, hb⟩ := polytope_box h
  have e : (⟨vs, s.box.vals, s.box.bot⟩ : Box) = s.box := by rw [← hs.1]
  rw [e] at hb
  obtain ⟨s1, s2⟩ := ok.poly_shape cs s.box
  have heq : s'.box = ib.poly cs s.box := by rw [hb]; simp [← s1]
  refine ⟨?_, heq⟩
  rw [heq]
  exact ⟨by rw [s1, hs.1], by rw [s2, s1]; exact hs.2.1, by rw [s1]; exact hs.2.2⟩

theorem forall_box {ib : Ibex} {vs f s s'} (h : forallRun ib vs f s = .ok s') :
    ∃ out, ib.forallC s.tick vs f s.box = .ok (s'.box, out) := by
  simp only [forallRun] at h
  obtain ⟨⟨b, out⟩, h1, h2⟩ := bindR_ok h
  simp only [Run.ok.injEq] at h2; subst h2
  exact ⟨out, h1⟩

theorem forall_shape {D I ib} (ok : ForallSound D I ib) {vs f s s'} (hs : Shape vs s.box)
    (h : forallRun ib vs f s = .ok s') : Shape vs s'.box := by
  obtain ⟨out, h1⟩ := forall_box h
  obtain ⟨s1, s2⟩ := ok.shape _ _ _ _ _ _ h1
  exact ⟨by rw [s1, hs.1], by rw [s2, s1]; exact hs.2.1, by rw [s1]; exact hs.2.2⟩

/-! #### join -/

theorem union_in {a b u : Box} (h : a.union b = .ok u) (hw : BoxWf a) (hwb : BoxWf b) {ρ} :
    Shape a.vars u ∧ (InBox ρ a ∨ InBox ρ b → InBox ρ u) := by
  unfold Box.union at h
  split at h
  · rename_i hv
    split at h
    · rename_i hb
      simp only [Outcome.ok.injEq] at h; subst h
      refine ⟨⟨hv.symm, hwb⟩, ?_⟩
      rintro (h | h)
      · exact absurd h.1 (by simp [hb])
      · exact h
    · split at h
      · rename_i hb
        simp only [Outcome.ok.injEq] at h; subst h
        refine ⟨⟨rfl, hw⟩, ?_⟩
        rintro (h | h)
        · exact h
        · exact absurd h.1 (by simp [hb])
      · rename_i hab hbb
        simp only [Outcome.ok.injEq] at h; subst h
        have hl : b.vals.length = a.vals.length := by rw [hwb.1, hw.1, hv]
        have hget : ∀ i, i < a.vals.length →
            Box.get { a with vals := List.zipWith Itv.hull a.vals b.vals } i =
              (a.get i).hull (b.get i) := by
          intro i hi
          simp [Box.get, List.getD_eq_getElem?_getD, hi,
            (show i < b.vals.length by omega)]
        refine ⟨⟨rfl, ?_, hw.2⟩, ?_⟩
        · simp [hl, hw.1]
        · rintro (h | h)
          · refine ⟨by simpa using hab, fun i v hi => ?_⟩
            have := lt_of_getElem? hi
            rw [hget i (by rw [hw.1]; exact this)]
            exact in_hull_left (h.2 i v hi)
          · refine ⟨by simpa using hab, fun i v hi => ?_⟩
            have := lt_of_getElem? hi
            rw [hget i (by rw [hw.1]; exact this)]
            exact in_hull_right (h.2 i v (hv ▸ hi))
  · cases h

theorem sub_endpoints {i j : Itv} (hne : i.isEmpty = false)
    (h : ∀ x, InItv x i → InItv x j) : j.lb ≤ i.lb ∧ i.ub ≤ j.ub := by
  obtain ⟨x0, hx0⟩ := exists_in_of_not_isEmpty hne
  obtain ⟨l, u⟩ := i
  obtain ⟨l', u'⟩ := j
  constructor
  · cases l with
    | pinf => exact hx0.1.elim
    | fin a =>
      have ha : InItv (a : ℝ) ⟨.fin a, u⟩ :=
        ⟨le_refl _, above_trans hx0.2 hx0.1⟩
      exact below_le_above (h _ ha).1 (le_refl (a : ℝ))
    | ninf =>
      cases l' with
      | ninf => exact le_refl _
      | pinf => exact (h _ hx0).1.elim
      | fin b =>
        have : InItv (min x0 ((b : ℝ) - 1)) ⟨.ninf, u⟩ :=
          ⟨trivial, above_trans hx0.2 (min_le_left _ _)⟩
        have h2 : (b : ℝ) ≤ min x0 ((b : ℝ) - 1) := (h _ this).1
        have := min_le_right x0 ((b : ℝ) - 1)
        linarith
  · cases u with
    | ninf => exact hx0.2.elim
    | fin a =>
      have ha : InItv (a : ℝ) ⟨l, .fin a⟩ := ⟨below_trans hx0.1 hx0.2, le_refl _⟩
      exact below_le_above (a := .fin a) (le_refl (a : ℝ)) (h _ ha).2
    | pinf =>
      cases u' with
      | pinf => exact le_refl _
      | ninf => exact (h _ hx0).2.elim
      | fin b =>
        have : InItv (max x0 ((b : ℝ) + 1)) ⟨l, .pinf⟩ :=
          ⟨below_trans hx0.1 (le_max_left _ _), trivial⟩
        have h2 : max x0 ((b : ℝ) + 1) ≤ (b : ℝ) := (h _ this).2
        have := le_max_right x0 ((b : ℝ) + 1)
        linarith

theorem hull_sub {i j k : Itv} (hi : ∀ x, InItv x i → InItv x k) (hj : ∀ x, InItv x j → InItv x k)
    {x : ℝ} (h : InItv x (i.hull j)) : InItv x k := by
  unfold Itv.hull at h
  split at h
  · exact hj x h
  · split at h
    · exact hi x h
    · rename_i h1 h2
      obtain ⟨a1, a2⟩ := sub_endpoints (by simpa using h1) hi
      obtain ⟨b1, b2⟩ := sub_endpoints (by simpa using h2) hj
      exact in_mono (le_min a1 b1) (max_le a2 b2) h

theorem union_sub {a b c u : Box} (h : a.union b = .ok u) (hw : BoxWf a) (hwb : BoxWf b)
    (ha : SubBox a c) (hb : SubBox b c) : SubBox u c := by
  unfold Box.union at h
  split at h
  · rename_i hv
    split at h
    · simp only [Outcome.ok.injEq] at h; subst h; exact hb
    · split at h
      · simp only [Outcome.ok.injEq] at h; subst h; exact ha
      · rename_i hab hbb
        simp only [Outcome.ok.injEq] at h; subst h
        have hl : b.vals.length = a.vals.length := by rw [hwb.1, hw.1, hv]
        intro _
        refine ⟨(ha (by simpa using hab)).1, fun i x hx => ?_⟩
        by_cases hi : i < a.vals.length
        · have hget : Box.get { a with vals := List.zipWith Itv.hull a.vals b.vals } i =
              (a.get i).hull (b.get i) := by
            simp [Box.get, List.getD_eq_getElem?_getD, hi,
              (show i < b.vals.length by omega)]
          rw [hget] at hx
          exact hull_sub ((ha (by simpa using hab)).2 i) ((hb (by simpa using hbb)).2 i) hx
        · have : a.get i = Itv.univ := by
            simp [Box.get, List.getD_eq_getElem?_getD, List.getElem?_eq_none (by omega : a.vals.length ≤ i)]
          exact (ha (by simpa using hab)).2 i x (this ▸ in_univ x)
  · cases h

theorem join_box {s t u : CStatus} (h : s.join t = .ok u) : s.box.union t.box = .ok u.box := by
  simp only [CStatus.join] at h
  obtain ⟨b, h1, h2⟩ := bindO_ok h
  simp only [Outcome.ok.injEq] at h2; subst h2; exact h1

theorem lift_ok {α} {x : Outcome α} {a : α} (h : Run.lift x = .ok a) : x = .ok a := by
  cases x <;> simp_all [Run.lift]

theorem joinLoop_sub {vs} {s : CStatus} (hs : Shape vs s.box) : ∀ {ps : List Pruner},
    (∀ p ∈ ps, Closed (SubR vs) p) → ∀ (acc s' : CStatus), Shape vs acc.box →
      SubBox acc.box s.box → joinLoop s ps acc = .ok s' → Shape vs s'.box ∧ SubBox s'.box s.box
  | [], _, acc, s', ha, hb, h => by
    simp only [joinLoop, Run.ok.injEq] at h; subst h; exact ⟨ha, hb⟩
  | p :: ps, hp, acc, s', ha, hb, h => by
    simp only [joinLoop] at h
    obtain ⟨si, h1, h2⟩ := bindR_ok h
    obtain ⟨acc', h3, h4⟩ := bindR_ok h2
    obtain ⟨c1, c2⟩ := hp p (by simp) s si h1 hs
    have hu := join_box (lift_ok h3)
    have hsh := (union_in (ρ := fun _ => 0) hu ha.2 c1.2).1
    rw [ha.1] at hsh
    exact joinLoop_sub hs (fun q hq => hp q (by simp [hq])) acc' s' hsh
      (union_sub hu ha.2 c1.2 hb c2) h4

theorem joinLoop_keep {vs ρ} {s : CStatus} (hs : Shape vs s.box) (hin : InBox ρ s.box) :
    ∀ {ps : List Pruner}, (∀ p ∈ ps, ∀ si, p s = .ok si → Shape vs si.box) →
      ∀ (acc s' : CStatus), Shape vs acc.box → joinLoop s ps acc = .ok s' →
        (InBox ρ acc.box ∨ ∃ p ∈ ps, ∀ si, p s = .ok si → InBox ρ si.box) → InBox ρ s'.box
  | [], _, acc, s', _, h, hk => by
    simp only [joinLoop, Run.ok.injEq] at h; subst h
    rcases hk with hk | ⟨p, hp, _⟩
    · exact hk
    · cases hp
  | p :: ps, hp, acc, s', ha, h, hk => by
    simp only [joinLoop] at h
    obtain ⟨si, h1, h2⟩ := bindR_ok h
    obtain ⟨acc', h3, h4⟩ := bindR_ok h2
    have c1 := hp p (by simp) si h1
    have hu := join_box (lift_ok h3)
    obtain ⟨hsh, hun⟩ := union_in (ρ := ρ) hu ha.2 c1.2
    rw [ha.1] at hsh
    refine joinLoop_keep hs hin (fun q hq => hp q (by simp [hq])) acc' s' hsh h4 ?_
    rcases hk with hk | ⟨q, hq, hq2⟩
    · exact Or.inl (hun (Or.inl hk))
    · rcases List.mem_cons.mp hq with rfl | hq
      · exact Or.inl (hun (Or.inr (hq2 si h1)))
      · exact Or.inr ⟨q, hq, hq2⟩

mutual
theorem prune_sub {D I ib} (ok : IbexSound D I ib) (okf : ForallSound D I ib) {n vs} : ∀ c : Ctc,
    BuiltFor vs c → Closed (SubR vs) (prune ib n c)
  | .id, _, s, s', h => by
    simp only [prune, Run.ok.injEq] at h; subst h; exact (subR_pre vs).refl _
  | .integer idxs, hb, s, s', h => integerLoop_sub hb s s' h
  | .seq cs, hb, s, s', h => by
    simp only [prune] at h; exact seqRun_closed (subR_pre vs) (prunes_sub ok okf cs hb) s s' h
  | .fixpoint cs, hb, s, s', h => by
    simp only [prune] at h; exact fixLoop_closed (subR_pre vs) (prunes_sub ok okf cs hb) n s s' h
  | .worklist cs, hb, s, s', h => by
    simp only [prune] at h; exact wlRun_closed (subR_pre vs) (prunes_sub ok okf cs hb) n s s' h
  | .join cs, hb, s, s', h => by
    intro hs
    simp only [prune, joinRun] at h
    exact joinLoop_sub hs (prunes_sub ok okf cs hb) { s with box := s.box.setEmpty } s' hs
      (subBox_setEmpty _ _) h
  | .fwdbwd ws f c, hb, s, s', h => by
    intro hs
    obtain ⟨rfl, _⟩ := hb
    simp only [prune] at h
    obtain ⟨h1, h2⟩ := fwdbwd_shape ok hs h
    exact ⟨h1, h2 ▸ ok.bwd_sub c s.box hs.2⟩
  | .polytope ws fs cs, hb, s, s', h => by
    intro hs
    obtain ⟨rfl, _⟩ := hb
    simp only [prune] at h
    obtain ⟨h1, h2⟩ := polytope_shape ok hs h
    exact ⟨h1, h2 ▸ ok.poly_sub cs s.box hs.2⟩
  | .forallC ws f, hb, s, s', h => by
    intro hs
    cases (hb : ws = vs)
    simp only [prune] at h
    obtain ⟨out, h1⟩ := forall_box h
    exact ⟨forall_shape okf hs h, okf.sub _ _ _ _ _ _ hs.2 hs.1 h1⟩
theorem prunes_sub {D I ib} (ok : IbexSound D I ib) (okf : ForallSound D I ib) {n vs} :
    ∀ cs : List Ctc, BuiltForAll vs cs → ∀ p ∈ prunes ib n cs, Closed (SubR vs) p
  | [], _, p, hp => by simp [prunes] at hp
  | c :: cs, h, p, hp => by
    simp only [prunes, List.mem_cons] at hp
    rcases hp with rfl | hp
    · exact prune_sub ok okf c h.1
    · exact prunes_sub ok okf cs h.2 p hp
end

mutual
theorem prune_keep {D I ib} (ok : IbexSound D I ib) (okf : ForallSound D I ib) {n vs ρ}
    (hty : TypedOn ρ vs) : ∀ c : Ctc, BuiltFor vs c → (∀ f ∈ formulasC c, RcOkF f) →
    (∀ f ∈ formulasC c, DefF D I ρ f) → SatC I ρ c → Closed (KeepR vs ρ) (prune ib n c)
  | .id, _, _, _, _, s, s', h => by
    simp only [prune, Run.ok.injEq] at h; subst h; exact (keepR_pre vs ρ).refl _
  | .integer idxs, hb, _, _, _, s, s', h => integerLoop_keep hty hb s s' h
  | .seq cs, hb, hr, hd, hsat, s, s', h => by
    simp only [prune] at h
    exact seqRun_closed (keepR_pre vs ρ) (prunes_keep ok okf hty cs hb hr hd hsat) s s' h
  | .fixpoint cs, hb, hr, hd, hsat, s, s', h => by
    simp only [prune] at h
    exact fixLoop_closed (keepR_pre vs ρ) (prunes_keep ok okf hty cs hb hr hd hsat) n s s' h
  | .worklist cs, hb, hr, hd, hsat, s, s', h => by
    simp only [prune] at h
    exact wlRun_closed (keepR_pre vs ρ) (prunes_keep ok okf hty cs hb hr hd hsat) n s s' h
  | .join cs, hb, hr, hd, hsat, s, s', h => by
    intro hs
    have hsub := prune_sub ok okf (.join cs) hb s s' h hs
    refine ⟨hsub.1, fun hin => ?_⟩
    simp only [prune, joinRun] at h
    refine joinLoop_keep hs hin (fun p hp si hsi => (prunes_sub ok okf cs hb p hp s si hsi hs).1)
      { s with box := s.box.setEmpty } s' (show Shape vs s.box.setEmpty from hs) h (Or.inr ?_)
    exact prunes_any ok okf hty cs hb hr hd hsat hs hin
  | .fwdbwd ws f c, hb, hr, hd, hsat, s, s', h => by
    intro hs
    obtain ⟨rfl, hc⟩ := hb
    simp only [prune] at h
    obtain ⟨h1, h2⟩ := fwdbwd_shape ok hs h
    obtain ⟨e1, e2, e3, e4, e5⟩ := ibexConv_holds (D := D) (I := I) (ρ := ρ) hc
    refine ⟨h1, fun hin => ?_⟩
    rw [h2]
    exact ok.bwd_sound c s.box hs.2 (by rw [hs.1]; exact e5) (e3.mp (hr f (by simp [formulasC])))
      ρ hin (e2.mp (hd f (by simp [formulasC]))) (e1.mp hsat)
  | .polytope ws fs cs, hb, hr, hd, hsat, s, s', h => by
    intro hs
    obtain ⟨rfl, hc⟩ := hb
    simp only [prune] at h
    obtain ⟨h1, h2⟩ := polytope_shape ok hs h
    refine ⟨h1, fun hin => ?_⟩
    rw [h2]
    have key : ∀ c ∈ cs, (∀ v ∈ c.e.vars, v ∈ s.box.vars) ∧ RcOkE c.e ∧ DefE D I ρ c.e ∧
        relSem c.op (eval I ρ c.e) 0 := by
      intro c hcm
      obtain ⟨f, hf, hconv⟩ := polyCtrs_mem hc c hcm
      obtain ⟨e1, e2, e3, e4, e5⟩ := ibexConv_holds (D := D) (I := I) (ρ := ρ) hconv
      exact ⟨by rw [hs.1]; exact e5, e3.mp (hr f hf), e2.mp (hd f hf), e1.mp (hsat f hf)⟩
    exact ok.poly_sound cs s.box hs.2 (fun c hcm => (key c hcm).1) (fun c hcm => (key c hcm).2.1)
      ρ hin (fun c hcm => (key c hcm).2.2.1) (fun c hcm => (key c hcm).2.2.2)
  | .forallC ws f, hb, hr, hd, hsat, s, s', h => by
    intro hs
    cases (hb : ws = vs)
    simp only [prune] at h
    obtain ⟨out, h1⟩ := forall_box h
    exact ⟨forall_shape okf hs h, fun hin =>
      okf.sound _ _ _ _ _ _ hs.2 hs.1 h1 ρ hin (by rw [hs.1]; exact hty)
        (hr f (by simp [formulasC])) (hd f (by simp [formulasC])) hsat⟩
theorem prunes_keep {D I ib} (ok : IbexSound D I ib) (okf : ForallSound D I ib) {n vs ρ}
    (hty : TypedOn ρ vs) : ∀ cs : List Ctc, BuiltForAll vs cs → (∀ f ∈ formulasCs cs, RcOkF f) →
    (∀ f ∈ formulasCs cs, DefF D I ρ f) → SatAllC I ρ cs →
    ∀ p ∈ prunes ib n cs, Closed (KeepR vs ρ) p
  | [], _, _, _, _, p, hp => by simp [prunes] at hp
  | c :: cs, h, hr, hd, hsat, p, hp => by
    simp only [prunes, List.mem_cons] at hp
    rcases hp with rfl | hp
    · exact prune_keep ok okf hty c h.1 (fun f hf => hr f (by simp [formulasCs, hf]))
        (fun f hf => hd f (by simp [formulasCs, hf])) hsat.1
    · exact prunes_keep ok okf hty cs h.2 (fun f hf => hr f (by simp [formulasCs, hf]))
        (fun f hf => hd f (by simp [formulasCs, hf])) hsat.2 p hp
theorem prunes_any {D I ib} (ok : IbexSound D I ib) (okf : ForallSound D I ib) {n vs ρ}
    (hty : TypedOn ρ vs) : ∀ cs : List Ctc, BuiltForAll vs cs → (∀ f ∈ formulasCs cs, RcOkF f) →
    (∀ f ∈ formulasCs cs, DefF D I ρ f) → SatAnyC I ρ cs → ∀ {s : CStatus}, Shape vs s.box →
    InBox ρ s.box → ∃ p ∈ prunes ib n cs, ∀ si, p s = .ok si → InBox ρ si.box
  | [], _, _, _, hsat, _, _, _ => hsat.elim
  | c :: cs, h, hr, hd, hsat, s, hs, hin => by
    rcases hsat with hsat | hsat
    · refine ⟨prune ib n c, by simp [prunes], fun si hsi => ?_⟩
      exact (prune_keep ok okf hty c h.1 (fun f hf => hr f (by simp [formulasCs, hf]))
        (fun f hf => hd f (by simp [formulasCs, hf])) hsat s si hsi hs).2 hin
    · obtain ⟨p, hp, hp2⟩ := prunes_any (n := n) ok okf hty cs h.2
        (fun f hf => hr f (by simp [formulasCs, hf]))
        (fun f hf => hd f (by simp [formulasCs, hf])) hsat hs hin
      exact ⟨p, by simp [prunes, hp], hp2⟩
end

end Verif.Proof
