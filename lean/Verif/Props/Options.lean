import Mathlib.Tactic.NormNum
import Verif.Spec.Options

/-! # C37: options reported are options in force -/

namespace Verif.Props
open Verif Verif.Model Verif.Spec

theorem boolOpt_precision : boolOpt ":precision" = none := by decide

theorem named_eq (key : String) : named key = boolOpt key := by
  unfold boolOpt
  split_ifs with h1 h2 h3 h4 h5 h6
  · rw [h1]; decide
  · rcases h2 with h | h <;> (rw [h]; decide)
  · rcases h3 with h | h <;> (rw [h]; decide)
  · rcases h4 with h | h <;> (rw [h]; decide)
  · rcases h5 with h | h <;> (rw [h]; decide)
  · rcases h6 with h | h <;> (rw [h]; decide)
  · simp only [not_or] at h2 h3 h4 h5 h6
    unfold named optionNames
    simp only [List.lookup_cons, List.lookup_nil, beq_eq_false_iff_ne.mpr h1,
      beq_eq_false_iff_ne.mpr h2.1, beq_eq_false_iff_ne.mpr h2.2, beq_eq_false_iff_ne.mpr h3.1,
      beq_eq_false_iff_ne.mpr h3.2, beq_eq_false_iff_ne.mpr h4.1, beq_eq_false_iff_ne.mpr h4.2,
      beq_eq_false_iff_ne.mpr h5.1, beq_eq_false_iff_ne.mpr h5.2, beq_eq_false_iff_ne.mpr h6.1,
      beq_eq_false_iff_ne.mpr h6.2]

theorem inForce_eq (fmt : ℚ → String) (o : Opts) (key : String) : inForce fmt o key =
    if key = ":precision" then some (fmt o.precision.value)
    else (boolOpt key).map fun b => if (o.flag b).value then "true" else "false" := by
  unfold inForce; rw [named_eq]

/-- What is kept for a key. -/
structure OptInv (fmt : ℚ → String) (key : String) (o : Opts) : Prop where
  file : key = ":precision" → o.precision.type = .default ∨ o.precision.type = .fromFile
  fileB : ∀ b, boolOpt key = some b → (o.flag b).type = .default ∨ (o.flag b).type = .fromFile
  rep : ∀ v w, o.option key = some v → inForce fmt o key = some w → v = w

theorem setFromFile_value {T : Type} {o : OptionValue T} (h : o.type = .default ∨ o.type = .fromFile)
    (v : T) : o.setFromFile v = ⟨v, .fromFile⟩ := by
  rcases h with h | h <;> simp [OptionValue.setFromFile, h]

theorem optInv_step {fmt : ℚ → String} {key : String} {o : Opts} {c : OptCmd}
    (h : OptInv fmt key o) (hc : Clean key c) : OptInv fmt key (o.step fmt c) := by
  obtain ⟨h1, h2, h3⟩ := h
  cases c with
  | setNum k v =>
    simp only [Clean, named_eq] at hc
    simp only [Opts.step, Opts.setNum]
    by_cases hk : k = key
    · subst hk
      simp only [ne_eq, not_true_eq_false, false_or] at hc
      obtain ⟨rfl, hv⟩ := hc
      rw [if_pos rfl, if_neg (not_le.mpr hv)]
      refine ⟨fun _ => .inr ?_, fun b hb => absurd hb (by simp [boolOpt_precision]), fun x w hx hw => ?_⟩
      · simp [Opts.store, setFromFile_value (h1 rfl)]
      · simp only [Opts.store, if_pos, inForce_eq, setFromFile_value (h1 rfl), Option.some.injEq] at hx hw
        rw [← hx, ← hw]
    · have ho : (o.store k (fmt v)).option key = o.option key := by simp [Opts.store, Ne.symm hk]
      split_ifs with hp hv
      · exact ⟨h1, h2, fun x w hx hw => h3 x w (ho ▸ hx) hw⟩
      · have hkp : key ≠ ":precision" := fun e => hk (hp.trans e.symm)
        refine ⟨fun e => absurd e hkp, h2, fun x w hx hw => h3 x w (ho ▸ hx) ?_⟩
        rw [inForce_eq] at hw ⊢
        rw [if_neg hkp] at hw ⊢
        exact hw
      · exact ⟨h1, h2, fun x w hx hw => h3 x w (ho ▸ hx) hw⟩
  | setStr k v =>
    simp only [Clean, named_eq] at hc
    simp only [Opts.step, Opts.setStr]
    rcases hc with ⟨hk, hb⟩ | ⟨rfl, hv, hp⟩
    · have ho : (o.store k v).option key = o.option key := by simp [Opts.store, Ne.symm hk]
      cases hbk : boolOpt k with
      | none => exact ⟨h1, h2, fun x w hx hw => h3 x w (ho ▸ hx) hw⟩
      | some b =>
        have hb : boolOpt key ≠ some b := by
          rcases hb with hb | hb
          · rw [hbk] at hb; cases hb
          · rw [hbk] at hb; exact Ne.symm hb
        cases parseBool v with
        | none => exact ⟨h1, h2, fun x w hx hw => h3 x w (ho ▸ hx) hw⟩
        | some u =>
          refine ⟨h1, fun c hcb => ?_, fun x w hx hw => h3 x w (ho ▸ hx) ?_⟩
          · have : c ≠ b := fun e => hb (e ▸ hcb)
            simp only [this, if_false]
            exact h2 c hcb
          · simp only [inForce_eq, Opts.store] at hw ⊢
            split_ifs at hw ⊢ with hp
            · exact hw
            · cases hkb : boolOpt key with
              | none => rw [hkb] at hw; simp at hw
              | some c =>
                have : c ≠ b := fun e => hb (e ▸ hkb)
                simpa [hkb, this] using hw
    · cases hbk : boolOpt k with
      | none =>
        refine ⟨h1, h2, fun x w hx hw => ?_⟩
        simp [inForce_eq, hp, hbk] at hw
      | some b =>
        obtain ⟨u, hu⟩ : ∃ u, parseBool v = some u := by
          rcases hv with rfl | rfl
          · exact ⟨true, rfl⟩
          · exact ⟨false, rfl⟩
        simp only [hu]
        refine ⟨fun e => absurd e hp, fun c hcb => ?_, fun x w hx hw => ?_⟩
        · rw [hbk, Option.some.injEq] at hcb
          subst hcb
          simp [Opts.store, setFromFile_value (h2 b hbk)]
        · simp only [Opts.store, if_pos, Option.some.injEq] at hx
          simp only [inForce_eq, hp, if_false, hbk, Option.map_some, if_pos, Opts.store,
            setFromFile_value (h2 b hbk), Option.some.injEq] at hw
          unfold parseBool at hu
          split_ifs at hu with e1 e2 <;> simp only [Option.some.injEq] at hu <;> subst hu
          · rw [← hx, e1] at *; simpa using hw
          · rw [← hx, e2] at *; simpa using hw
  | cmdPrecision v =>
    simp only [Clean, named_eq] at hc
    exact ⟨fun e => absurd e hc, h2, fun x w hx hw => h3 x w hx (by
      rw [inForce_eq] at hw ⊢
      rw [if_neg hc] at hw ⊢
      exact hw)⟩
  | codePrecision v =>
    simp only [Clean, named_eq] at hc
    exact ⟨fun e => absurd e hc, h2, fun x w hx hw => h3 x w hx (by
      rw [inForce_eq] at hw ⊢
      rw [if_neg hc] at hw ⊢
      exact hw)⟩
  | cmdFlag b v =>
    simp only [Clean, named_eq] at hc
    refine ⟨h1, fun c hcb => ?_, fun x w hx hw => h3 x w hx ?_⟩
    · have : c ≠ b := fun e => hc (e ▸ hcb)
      simp only [Opts.step, this, if_false]
      exact h2 c hcb
    · simp only [inForce_eq, Opts.step] at hw ⊢
      split_ifs at hw ⊢ with hp
      · exact hw
      · cases hkb : boolOpt key with
        | none => rw [hkb] at hw; simp at hw
        | some c =>
          have : c ≠ b := fun e => hc (e ▸ hkb)
          simpa [hkb, this] using hw
  | codeFlag b v =>
    simp only [Clean, named_eq] at hc
    refine ⟨h1, fun c hcb => ?_, fun x w hx hw => h3 x w hx ?_⟩
    · have : c ≠ b := fun e => hc (e ▸ hcb)
      simp only [Opts.step, this, if_false]
      exact h2 c hcb
    · simp only [inForce_eq, Opts.step] at hw ⊢
      split_ifs at hw ⊢ with hp
      · exact hw
      · cases hkb : boolOpt key with
        | none => rw [hkb] at hw; simp at hw
        | some c =>
          have : c ≠ b := fun e => hc (e ▸ hkb)
          simpa [hkb, this] using hw

/-- C37 for a key that is set only with admissible values of the right kind, when the option it
names is set neither under another key nor from the command line or in code.  Missing: the other
settings, after which the value reported may not be in force (`C37_rejected`, `C37_overridden`,
`C37_alias`, `C37_kind`). -/
theorem C37_reported_partial (fmt : ℚ → String) (key : String) (cs : List OptCmd)
    (h : ∀ c ∈ cs, Clean key c) : Reports fmt (Opts.run fmt cs) key := by
  have hi : OptInv fmt key (Opts.run fmt cs) := by
    unfold Opts.run
    have h0 : OptInv fmt key .init := ⟨fun _ => .inl rfl, fun _ _ => .inl rfl, by simp [Opts.init]⟩
    revert h0
    generalize Opts.init = o
    induction cs generalizing o with
    | nil => exact id
    | cons c cs ih =>
      intro h0
      exact ih (fun c hc => h c (by simp [hc])) _ (optInv_step h0 (h c (by simp)))
  intro v w hv hw
  unfold Opts.get at hv
  split at hv
  · rename_i x hx
    rw [← Option.some.inj hv]
    exact hi.rep x w hx hw
  · split_ifs at hv with hp
    simp only [inForce_eq, hp, if_true, Option.some.injEq, OptionValue.get] at hv hw
    rw [← hv, ← hw]

/-- Whether a command sets a key by name. -/
def Names (key : String) : OptCmd → Prop
  | .setNum k _ => k = key
  | .setStr k _ => k = key
  | _ => False

/-- C37 for a key not set by name, whatever else happens. -/
theorem C37_unnamed_partial (fmt : ℚ → String) (key : String) (cs : List OptCmd)
    (h : ∀ c ∈ cs, ¬ Names key c) : Reports fmt (Opts.run fmt cs) key := by
  have hi : (Opts.run fmt cs).option key = none := by
    unfold Opts.run
    have h0 : Opts.init.option key = none := rfl
    revert h0
    generalize Opts.init = o
    induction cs generalizing o with
    | nil => exact id
    | cons c cs ih =>
      intro h0
      refine ih (fun c hc => h c (by simp [hc])) _ ?_
      have hn := h c (by simp)
      cases c with
      | setNum k v =>
        have : key ≠ k := fun e => hn e.symm
        simp only [Opts.step, Opts.setNum]
        split_ifs <;> simp [Opts.store, this, h0]
      | setStr k v =>
        have : key ≠ k := fun e => hn e.symm
        simp only [Opts.step, Opts.setStr]
        split
        · simp [Opts.store, this, h0]
        · split <;> simp [Opts.store, this, h0]
      | _ => exact h0
  intro v w hv hw
  unfold Opts.get at hv
  rw [hi] at hv
  simp only at hv
  split_ifs at hv with hp
  simp only [inForce_eq, hp, if_true, Option.some.injEq, OptionValue.get] at hv hw
  rw [← hv, ← hw]

theorem step_precision (fmt : ℚ → String) (o : Opts) (v : ℚ) (h : 0 < v) :
    o.step fmt (.setNum ":precision" v) =
      { o.store ":precision" (fmt v) with precision := o.precision.setFromFile v } := by
  simp only [Opts.step, Opts.setNum, if_true, if_neg (not_le.mpr h)]
  rfl

/-- `:precision` set twice, between settings of other options. -/
example (fmt : ℚ → String) :
    let cs : List OptCmd := [.setNum ":precision" (1 / 10), .setStr ":polytope" "true",
      .cmdFlag .produceModels true, .setNum ":precision" (1 / 100), .setStr ":polytope" "maybe"]
    (∀ c ∈ cs, Clean ":precision" c) ∧
      (Opts.run fmt cs).get fmt ":precision" = some (fmt (1 / 100)) ∧
      inForce fmt (Opts.run fmt cs) ":precision" = some (fmt (1 / 100)) := by
  intro cs
  refine ⟨?_, by
    simp only [cs, Opts.run, List.foldl_cons, List.foldl_nil, step_precision fmt _ (1 / 10) (by norm_num),
      step_precision fmt _ (1 / 100) (by norm_num)]
    rfl, by
    simp only [cs, Opts.run, List.foldl_cons, List.foldl_nil, step_precision fmt _ (1 / 10) (by norm_num),
      step_precision fmt _ (1 / 100) (by norm_num)]
    rfl⟩
  simp only [cs, List.mem_cons, List.not_mem_nil, or_false, forall_eq_or_imp, forall_eq, Clean,
    boolOpt_precision]
  refine ⟨.inr ⟨trivial, by norm_num⟩, .inl ⟨by decide, by decide⟩, by decide, .inr ⟨trivial, by norm_num⟩,
    .inl ⟨by decide, by decide⟩⟩

/-- A precision that is not positive is rejected, but reported afterwards. -/
theorem C37_rejected (fmt : ℚ → String) (hf : fmt (-1) ≠ fmt (1 / 1000)) :
    (Opts.init.setNum fmt ":precision" (-1)).2 = true ∧
    ¬ Reports fmt (Opts.run fmt [.setNum ":precision" (-1)]) ":precision" := by
  refine ⟨by norm_num [Opts.setNum], fun h => hf (h _ _ rfl ?_)⟩
  norm_num [Opts.run, Opts.step, Opts.setNum, inForce_eq, Opts.store, Opts.init, OptionValue.mk']

/-- A precision set by name is reported, though that from the command line is in force. -/
theorem C37_overridden (fmt : ℚ → String) (hf : fmt (1 / 10) ≠ fmt (1 / 2)) :
    ¬ Reports fmt (Opts.run fmt [.cmdPrecision (1 / 2), .setNum ":precision" (1 / 10)])
      ":precision" := by
  refine fun h => hf (h _ _ ?_ ?_) <;>
  · simp only [Opts.run, List.foldl_cons, List.foldl_nil,
      step_precision fmt _ (1 / 10) (by norm_num)]
    rfl

/-- An option set under its two names. -/
theorem C37_alias (fmt : ℚ → String) :
    ¬ Reports fmt (Opts.run fmt [.setStr ":produce-models" "true", .setStr ":produce_models" "false"])
      ":produce-models" := by
  intro h
  have := h "true" "false" rfl rfl
  revert this
  decide

/-- A value of the wrong kind is kept and reported, but has no effect. -/
theorem C37_kind (fmt : ℚ → String) (hf : "0.5" ≠ fmt (1 / 1000)) :
    ¬ Reports fmt (Opts.run fmt [.setStr ":precision" "0.5"]) ":precision" := by
  refine fun h => hf (h _ _ rfl ?_)
  rfl

end Verif.Props
