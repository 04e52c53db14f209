import Verif.Proof.Script
import Verif.Spec.GetValue

/-! # Values printed -/

namespace Verif.Proof.Smt2
open Verif Verif.Model Verif.Model.Smt2 Verif.Model.Prefix Verif.Spec Verif.Spec.Smt2 Verif.Proof

theorem readNum_bound {e : EQ} {ws : List Word} (h : boundWords e = .ok ws) :
    ∃ q, e = .fin q ∧ ∀ r, readNum (ws ++ r) = some (q, r) := by
  cases e with
  | fin q =>
    refine ⟨q, rfl, fun r => ?_⟩
    simp only [boundWords, Outcome.ok.injEq] at h
    subst h
    have hd : (q.num : ℚ) / (q.den : ℚ) = q := Rat.num_div_den q
    by_cases h1 : q.den = 1
    · have h2 : ((q.num : ℤ) : ℚ) = q := by rw [h1] at hd; simpa using hd
      simp only [h1, if_true, intWords]
      split_ifs
      · simp [readNum, h2]
      · simp [readNum, h2]
    · have : ¬ ((q.den : ℤ) < 0) := by omega
      simp only [h1, if_false, intWords, this]
      split_ifs
      · simp [readNum, hd]
      · simp [readNum, hd]
  | ninf => simp [boundWords] at h
  | pinf => simp [boundWords] at h

theorem boundWords_head {e : EQ} {ws : List Word} (h : boundWords e = .ok ws) (r : List Word) :
    ∀ a t, ws ++ r ≠ .lp :: .txt "interval" :: a :: t := by
  cases e with
  | fin q =>
    simp only [boundWords, Outcome.ok.injEq] at h
    subst h
    intro a t
    unfold intWords
    split_ifs <;> simp
  | ninf => simp [boundWords] at h
  | pinf => simp [boundWords] at h

theorem readValue_itv {iv : Itv} {ws : List Word} (h : itvWords iv = .ok ws) :
    ∃ l u, iv = ⟨.fin l, .fin u⟩ ∧ readValue ws = some (l, u) := by
  unfold itvWords at h
  split_ifs at h with h1 h2
  · obtain ⟨q, e, k⟩ := readNum_bound h
    refine ⟨q, q, ?_, ?_⟩
    · rw [← e]; cases iv; simp only at h2 ⊢; rw [← h2]
    · have k' := k []
      rw [List.append_nil] at k'
      have hh := boundWords_head h []
      rw [List.append_nil] at hh
      unfold readValue
      split
      · rename_i r
        exact absurd rfl (hh _ _)
      · rw [k']
  · obtain ⟨a, ha, h⟩ := bindO_ok h
    obtain ⟨b, hb, h⟩ := bindO_ok h
    simp only [Outcome.ok.injEq] at h
    subst h
    obtain ⟨l, e1, k1⟩ := readNum_bound ha
    obtain ⟨u, e2, k2⟩ := readNum_bound hb
    refine ⟨l, u, by cases iv; simp only at e1 e2; rw [e1, e2], ?_⟩
    simp only [List.cons_append, List.nil_append, List.append_assoc, readValue, k1, k2]

theorem valuesWords_get {ops : IOps} {b : Box} : ∀ {ts : List Term} {ws : List (List Word)},
    valuesWords ops b ts = .ok ws → List.Forall₂ (fun t w => valueWords ops b t = .ok w) ts ws
  | [], ws, h => by
    simp only [valuesWords, Outcome.ok.injEq] at h
    subst h
    exact .nil
  | t :: ts, ws, h => by
    simp only [valuesWords] at h
    obtain ⟨w, h1, h⟩ := bindO_ok h
    obtain ⟨ws', h2, h⟩ := bindO_ok h
    simp only [Outcome.ok.injEq] at h
    subst h
    exact .cons h1 (valuesWords_get h2)

theorem runCmds_newVars {cfg : CCfg} : ∀ {l : List Cmd} {c c' : Ctx} {as},
    (∀ k ∈ l, ∃ t, k = Cmd.newVar t) → runCmds cfg c l = .ok (as, c') → c'.model = c.model
  | [], c, c', as, _, h => by
    simp only [runCmds, Run.ok.injEq, Prod.mk.injEq] at h
    rw [h.2]
  | k :: l, c, c', as, hl, h => by
    obtain ⟨t, rfl⟩ := hl k (by simp)
    simp only [runCmds, stepCmd, Run.bind_ok] at h
    obtain ⟨q, h1, h⟩ := bindR_ok h
    simp only [Run.ok.injEq, Prod.mk.injEq] at h
    have := runCmds_newVars (as := q.1) (c' := q.2) (fun k hk => hl k (by simp [hk])) h1
    rw [← h.2, this]

theorem dens_eq_map (I : Interp) (E : Names) (F : Funs) : ∀ ts : List STerm,
    dens I E F ts = ts.map (den I E F)
  | [] => rfl
  | t :: ts => by simp [dens, dens_eq_map I E F ts]

theorem nests_asserts {st : List Decls} : ∀ {ts : List STerm} {D : Decls},
    Nests D st (ts.map .assert) → ∀ t ∈ ts, UsesOnly D t
  | [], _, _ => by simp
  | t :: ts, D, h => by
    obtain ⟨h1, -, h3⟩ : CmdUsesOnly D (.assert t) ∧ _ ∧ Nests D st (ts.map .assert) := h
    intro u hu
    rcases List.mem_cons.mp hu with rfl | hu
    · exact h1
    · exact nests_asserts h3 u hu

theorem mem_freeNamess {n : String} : ∀ {ts : List STerm}, n ∈ freeNamess ts →
    ∃ t ∈ ts, n ∈ freeNames t
  | [], h => by simp [freeNamess] at h
  | t :: ts, h => by
    simp only [freeNamess, List.mem_append] at h
    rcases h with h | h
    · exact ⟨t, by simp, h⟩
    · obtain ⟨u, hu, k⟩ := mem_freeNamess h
      exact ⟨u, by simp [hu], k⟩

theorem mem_callNamess {n : String × Nat} : ∀ {ts : List STerm}, n ∈ callNamess ts →
    ∃ t ∈ ts, n ∈ callNames t
  | [], h => by simp [callNamess] at h
  | t :: ts, h => by
    simp only [callNamess, List.mem_append] at h
    rcases h with h | h
    · exact ⟨t, by simp, h⟩
    · obtain ⟨u, hu, k⟩ := mem_callNamess h
      exact ⟨u, by simp [hu], k⟩

end Verif.Proof.Smt2
