import Verif.Proof.Abstractor

/-! # C12: predicate abstraction -/

namespace Verif.Props
open Verif Verif.Model Verif.Spec Verif.Proof

theorem absInv_init (n : Nat) : AbsInv { next := n } :=
  ⟨by simp, by simp, by simp, by simp, by simp⟩

/-- C12: after any history of requests, with variables created in between,
* every output is propositional, and in every valuation that gives the recorded variables the
  truth values of their atoms the output has the truth value of the input, for all requests of
  the history at once (a recorded variable never changes its meaning);
* such a valuation exists above every valuation, changing recorded variables only;
* two requested atoms got the same variable exactly when they are the same atom;
* recorded variables and recorded atoms determine each other. -/
theorem C12_abstraction_history (start : Nat) (ops : List AbsOp)
    (ho : AbsOk { next := start } ops) :
    let r := absRun { next := start } ops
    (∀ p ∈ r.1, IsProp p.2 ∧ ∀ (I : Interp) (ρ : Valuation), Consistent I r.2.table ρ →
      (holds I ρ p.2 ↔ holds I ρ p.1)) ∧
    (∀ (I : Interp) (ρ : Valuation), ∃ ρ' : Valuation, Consistent I r.2.table ρ' ∧
      (∀ v, v ∉ r.2.table.map Prod.fst → ρ' v = ρ v) ∧
      ∀ v ∈ r.2.table.map Prod.fst, ρ' v = 0 ∨ ρ' v = 1) ∧
    (∀ p ∈ r.1, ∀ q ∈ r.1, IsNamed p.1 → IsNamed q.1 →
      ∃ b c, p.2 = .bvar b ∧ q.2 = .bvar c ∧ (b = c ↔ p.1 = q.1)) ∧
    (∀ p ∈ r.2.table, ∀ q ∈ r.2.table, p.1 = q.1 ↔ p.2 = q.2) := by
  intro r
  obtain ⟨h1, _, h3⟩ := absRun_spec ops _ (absInv_init start) ho
  refine ⟨h3, fun I ρ => consistent_ext I ρ _ h1.sorted h1.fv, ?_,
    fun p hp q hq => table_inj h1 hp hq⟩
  intro p hp q hq hpn hqn
  obtain ⟨b, hb, hbm⟩ := absRun_named ops _ (absInv_init start) ho p hp hpn
  obtain ⟨c, hc, hcm⟩ := absRun_named ops _ (absInv_init start) ho q hq hqn
  exact ⟨b, c, hb, hc, table_inj h1 hbm hcm⟩

theorem absRun_append (s : AbsState) (ops ops' : List AbsOp) :
    (absRun s (ops ++ ops')).2 = (absRun (absRun s ops).2 ops').2 := by
  induction ops generalizing s with
  | nil => rfl
  | cons op ops ih => cases op <;> simp only [List.cons_append, absRun, ih]

theorem AbsOk_append {s : AbsState} {ops ops' : List AbsOp} (h : AbsOk s (ops ++ ops')) :
    AbsOk s ops ∧ AbsOk (absRun s ops).2 ops' := by
  induction ops generalizing s with
  | nil => exact ⟨trivial, h⟩
  | cons op ops ih =>
    cases op with
    | newVar => exact ih (s := { s with next := s.next + 1 }) h
    | convert f => exact ⟨⟨h.1, (ih h.2).1⟩, (ih h.2).2⟩

/-- C12: what is recorded at some time stays recorded, whatever is requested afterwards. -/
theorem C12_recorded_forever (start : Nat) (ops ops' : List AbsOp)
    (ho : AbsOk { next := start } (ops ++ ops')) (p : Variable × Fml)
    (hp : p ∈ (absRun { next := start } ops).2.table) :
    p ∈ (absRun { next := start } (ops ++ ops')).2.table := by
  obtain ⟨h1, h2⟩ := AbsOk_append ho
  rw [absRun_append]
  exact (absRun_spec ops' _ (absRun_spec ops _ (absInv_init start) h1).1 h2).2.1.subset hp

/-- Conversion of a clause list is conversion of the conjunction. -/
theorem C12_convert_all (start : Nat) (ops : List AbsOp) (fs : List Fml)
    (ho : AbsOk { next := start } (ops ++ [.convert (mkConj (toSet fs))])) (I : Interp)
    (ρ : Valuation) :
    let s := (absRun { next := start } ops).2
    Consistent I (absConvertAll fs s).2.table ρ →
    (holds I ρ (absConvertAll fs s).1 ↔ ∀ f ∈ fs, holds I ρ f) := by
  intro s hc
  obtain ⟨h1, h2⟩ := AbsOk_append ho
  have := (absVisit_spec (mkConj (toSet fs)) s
    (absRun_spec ops _ (absInv_init start) h1).1 h2.1).mean I ρ hc
  rw [absConvertAll, absConvert, this]
  simp [mem_toSet]

/-- `x ≤ 1`, then `x > 1 ∨ ¬(x = 2)`, then `x ≤ 1` again: the negated relation shares the
variable of its complement, and the repeated atom gets the variable it had. -/
example :
    let x : Variable := ⟨0, .continuous⟩
    let le : Fml := .rel .leq (.var x) (.const 1)
    let d : Fml := .disj [.rel .gt (.var x) (.const 1), .neg (.rel .eq (.var x) (.const 2))]
    let b : Variable := ⟨1, .boolean⟩
    let c : Variable := ⟨3, .boolean⟩
    let ops : List AbsOp := [.convert le, .newVar, .convert d, .convert le]
    (absRun { next := 1 } ops).1 = [(le, .bvar b), (d, .disj [.neg (.bvar b), .neg (.bvar c)]),
      (le, .bvar b)] ∧
    (absRun { next := 1 } ops).2.table = [(b, le), (c, .rel .eq (.var x) (.const 2))] := by
  decide +kernel

example :
    let x : Variable := ⟨0, .continuous⟩
    AbsOk { next := 1 } [.convert (.rel .leq (.var x) (.const 1)), .newVar] := by
  intro x; exact ⟨by decide +kernel, trivial⟩

end Verif.Props
