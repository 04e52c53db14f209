import Verif.Proof.Tseitin
import Verif.Proof.Canon

/-! Definitional CNF of quantifier-free formulas always succeeds and yields clauses. -/

namespace Verif.Proof
open Verif Verif.Model Verif.Spec

/-- Literals of quantifier-free formulas. -/
def QLit : Fml → Prop
  | .ff | .tt | .bvar _ | .rel .. | .neg (.bvar _) | .neg (.rel ..) => True
  | _ => False

theorem QLit.isAtomic {f} (h : QLit f) : f.isAtomic = true := by
  unfold QLit at h
  split at h <;> simp_all [Fml.isAtomic]

theorem QLit.isLit {f} (h : QLit f) : IsLit f := by
  unfold QLit at h
  split at h
  all_goals first
    | exact Or.inl trivial
    | exact Or.inr ⟨_, rfl, trivial⟩
    | cases h

theorem QLit.notF {f} (h : QLit f) : QLit (Model.notF f) := by
  unfold QLit at h
  split at h
  all_goals first
    | (simp [Model.notF, QLit]; done)
    | cases h

theorem QLit.not_disj {fs} : ¬ QLit (.disj fs) := id
theorem QLit.not_conj {fs} : ¬ QLit (.conj fs) := id

/-- Clauses of quantifier-free formulas. -/
def QClause (f : Fml) : Prop := QLit f ∨ ∃ fs, f = .disj fs ∧ ∀ g ∈ fs, QLit g

theorem QClause.isClause {f} (h : QClause f) : f.isClause = true ∧ IsClause f := by
  rcases h with h | ⟨fs, rfl, h⟩
  · exact ⟨by simp [Fml.isClause, h.isAtomic], Or.inl h.isLit⟩
  · refine ⟨?_, Or.inr ⟨fs, rfl, fun g hg => (h g hg).isLit⟩⟩
    simp only [Fml.isClause, Bool.or_eq_true, List.all_eq_true]
    exact Or.inr (fun g hg => (h g hg).isAtomic)

theorem QClause.disj_inv {fs} (h : QClause (.disj fs)) : ∀ g ∈ fs, QLit g := by
  rcases h with h | ⟨gs, h, h'⟩
  · exact absurd h QLit.not_disj
  · cases h; exact h'

theorem QClause.lit_of {f} (h : QClause f) (hn : ∀ fs, f ≠ .disj fs) : QLit f := by
  rcases h with h | ⟨gs, h, h'⟩
  · exact h
  · exact absurd h (hn gs)

theorem QClause.merge {f s} (hf : QClause f) (hs : ∀ g ∈ s, QLit g) :
    ∀ g ∈ mergeDisj f s, QLit g := by
  intro g hg
  unfold mergeDisj at hg
  split at hg
  · rw [mem_foldl_insertF] at hg
    rcases hg with hg | hg
    exacts [hf.disj_inv g hg, hs g hg]
  · rename_i hne
    rw [mem_insertF] at hg
    rcases hg with rfl | hg
    · exact hf.lit_of hne
    · exact hs g hg

theorem QClause.orF {f g} (hf : QClause f) (hg : QClause g) : QClause (orF f g) := by
  unfold Model.orF
  split_ifs
  · exact hf
  · exact Or.inl trivial
  · exact hg
  · exact hf
  · exact hf
  · split
    · exact Or.inr ⟨_, rfl, QClause.merge hg hf.disj_inv⟩
    · exact Or.inr ⟨_, rfl, QClause.merge hf hg.disj_inv⟩
    · rename_i h1 h2
      refine Or.inr ⟨_, rfl, ?_⟩
      intro x hx
      simp only [mem_insertF, List.not_mem_nil, or_false] at hx
      rcases hx with rfl | rfl
      · exact hg.lit_of h2
      · exact hf.lit_of h1

theorem QClause.mkDisj {fs} (h : ∀ g ∈ fs, QLit g) : QClause (mkDisj fs) :=
  mkDisj_ind (Q := QLit) (R := QClause) (fun _ h => absurd h QLit.not_disj) (Or.inl trivial) (Or.inl trivial)
    (fun _ h => Or.inl h) (fun fs h => Or.inr ⟨fs, rfl, h⟩) h

theorem toSet_nodup {fs : List Fml} (h : fs.Nodup) : toSet fs = fs := by
  have : ∀ (gs s : List Fml), (s ++ gs).Nodup →
      gs.foldl (fun s g => insertF g s) s = s ++ gs := by
    intro gs
    induction gs with
    | nil => simp
    | cons g gs ih =>
      intro s hs
      have hg : g ∉ s := by
        rw [List.nodup_append] at hs
        exact fun hm => hs.2.2 g hm g (by simp) rfl
      simp only [List.foldl_cons]
      rw [insertF, if_neg hg, ih]
      · simp
      · simpa using hs
  simpa [toSet] using this fs [] (by simpa using h)

/-- Operands of a definition: distinct literals, at least two, no truth constants. -/
structure LitOps (gs : List Fml) : Prop where
  nodup : gs.Nodup
  lit : ∀ g ∈ gs, QLit g
  tt : .tt ∉ gs
  ff : .ff ∉ gs

theorem LitOps.mkConj {gs} (h : LitOps gs) (hl : 2 ≤ gs.length) :
    mkConj (toSet gs) = .conj gs := by
  rw [toSet_nodup h.nodup]
  have : ∀ (l s : List Fml), (s ++ l).Nodup → (∀ g ∈ l, QLit g) → .tt ∉ l → .ff ∉ l →
      conjLoop l s = some (s ++ l) := by
    intro l
    induction l with
    | nil => simp [conjLoop]
    | cons g l ih =>
      intro s hs hq htt hff
      have hg : g ∉ s := by
        rw [List.nodup_append] at hs
        exact fun hm => hs.2.2 g hm g (by simp) rfl
      simp only [List.mem_cons, not_or] at htt hff
      rw [conjLoop, if_neg (Ne.symm hff.1), if_neg (Ne.symm htt.1)]
      have hm : mergeConj g s = s ++ [g] := by
        have := hq g (by simp)
        unfold mergeConj
        split
        · exact absurd this QLit.not_conj
        · rw [insertF, if_neg hg]
      rw [hm, ih _ (by simpa using hs) (fun x hx => hq x (by simp [hx])) htt.2 hff.2]
      simp
  have h' := this gs [] (by simpa using h.nodup) h.lit h.tt h.ff
  simp only [List.nil_append] at h'
  unfold Model.mkConj
  rw [h']
  match gs, hl with
  | a :: b :: l, _ => rfl

theorem LitOps.mkDisj {gs} (h : LitOps gs) (hl : 2 ≤ gs.length) :
    mkDisj (toSet gs) = .disj gs := by
  rw [toSet_nodup h.nodup]
  have : ∀ (l s : List Fml), (s ++ l).Nodup → (∀ g ∈ l, QLit g) → .tt ∉ l → .ff ∉ l →
      disjLoop l s = some (s ++ l) := by
    intro l
    induction l with
    | nil => simp [disjLoop]
    | cons g l ih =>
      intro s hs hq htt hff
      have hg : g ∉ s := by
        rw [List.nodup_append] at hs
        exact fun hm => hs.2.2 g hm g (by simp) rfl
      simp only [List.mem_cons, not_or] at htt hff
      rw [disjLoop, if_neg (Ne.symm htt.1), if_neg (Ne.symm hff.1)]
      have hm : mergeDisj g s = s ++ [g] := by
        have := hq g (by simp)
        unfold mergeDisj
        split
        · exact absurd this QLit.not_disj
        · rw [insertF, if_neg hg]
      rw [hm, ih _ (by simpa using hs) (fun x hx => hq x (by simp [hx])) htt.2 hff.2]
      simp
  have h' := this gs [] (by simpa using h.nodup) h.lit h.tt h.ff
  simp only [List.nil_append] at h'
  unfold Model.mkDisj
  rw [h']
  match gs, hl with
  | a :: b :: l, _ => rfl

/-- Right-hand sides of the recorded definitions. -/
def DefShape (f : Fml) : Prop :=
  (∃ gs, f = .conj gs ∧ ∀ g ∈ gs, QLit g) ∨ (∃ gs, f = .disj gs ∧ ∀ g ∈ gs, QLit g) ∨
    ∃ v, f = .neg (.bvar v)

/-- What a visit of a canonical quantifier-free formula delivers. -/
def TsTotal (f : Fml) (s : TsState) : Prop :=
  ∃ g s' m, tsVisit f s = .ok (g, s') ∧ s'.map = s.map ++ m ∧ s.next ≤ s'.next ∧
    (∀ p ∈ m, DefShape p.2) ∧
    ((g = f ∧ QLit f ∧ m = []) ∨
      (∃ h : Variable, g = .bvar h ∧ s.next ≤ h.id ∧ h.id < s'.next))

def TsTotalList (fs : List Fml) (s : TsState) : Prop :=
  ∃ gs s' m, tsVisitList fs s = .ok (gs, s') ∧ s'.map = s.map ++ m ∧ s.next ≤ s'.next ∧
    (∀ p ∈ m, DefShape p.2) ∧ gs.length = fs.length ∧ gs.Nodup ∧ (∀ g ∈ gs, QLit g) ∧
    (∀ g ∈ gs, g ∈ fs ∨ ∃ h : Variable, g = .bvar h ∧ s.next ≤ h.id ∧ h.id < s'.next)

theorem QLit.notF_bvar (v) : Model.notF (.bvar v) = Fml.neg (.bvar v) := by simp [Model.notF]

mutual
theorem tsVisit_total (f : Fml) (s : TsState) (hc : Canon f) (hq : f.qdepth = 0)
    (hid : ∀ v ∈ f.fv, v.id < s.next) : TsTotal f s := by
  cases f with
  | ff => exact ⟨_, s, [], by simp only [tsVisit], by simp, le_rfl, by simp, Or.inl ⟨rfl, trivial, rfl⟩⟩
  | tt => exact ⟨_, s, [], by simp only [tsVisit], by simp, le_rfl, by simp, Or.inl ⟨rfl, trivial, rfl⟩⟩
  | bvar v => exact ⟨_, s, [], by simp only [tsVisit], by simp, le_rfl, by simp, Or.inl ⟨rfl, trivial, rfl⟩⟩
  | rel op a b => exact ⟨_, s, [], by simp only [tsVisit], by simp, le_rfl, by simp, Or.inl ⟨rfl, trivial, rfl⟩⟩
  | all vs f => simp [Fml.qdepth] at hq
  | conj fs =>
    obtain ⟨ho, hl⟩ := Ops.of_conj hc
    obtain ⟨gs, s1, m, h1, h2, h3, h4, h5, h6, h7, h8⟩ := tsVisitList_total fs s ho.nodup
      ho.canon ho.tt ho.ff (fun f hf => Nat.le_zero.mp (Fml.qdepthList_le.mp (le_of_eq hq) f hf))
      (fun f hf v hv => hid v (Fml.mem_fvList.mpr ⟨f, hf, hv⟩))
    have hops : LitOps gs := by
      refine ⟨h6, h7, ?_, ?_⟩
      · intro h; rcases h8 _ h with h | ⟨_, h, _⟩; exacts [ho.tt h, by cases h]
      · intro h; rcases h8 _ h with h | ⟨_, h, _⟩; exacts [ho.ff h, by cases h]
    refine ⟨_, _, m ++ [(s1.freshVar, mkConj (toSet gs))], by simp only [tsVisit, h1, Outcome.bind_ok]; rfl, ?_, ?_, ?_, ?_⟩
    · simp [TsState.define, h2]
    · simp only [TsState.define]; omega
    · intro p hp
      rcases List.mem_append.mp hp with hp | hp
      · exact h4 p hp
      · simp only [List.mem_singleton] at hp; subst hp
        exact Or.inl ⟨gs, hops.mkConj (by omega), h7⟩
    · right
      exact ⟨s1.freshVar, rfl, by simpa [TsState.freshVar] using h3, by simp [TsState.freshVar, TsState.define]⟩
  | disj fs =>
    obtain ⟨ho, hl⟩ := Ops.of_disj hc
    obtain ⟨gs, s1, m, h1, h2, h3, h4, h5, h6, h7, h8⟩ := tsVisitList_total fs s ho.nodup
      ho.canon ho.tt ho.ff (fun f hf => Nat.le_zero.mp (Fml.qdepthList_le.mp (le_of_eq hq) f hf))
      (fun f hf v hv => hid v (Fml.mem_fvList.mpr ⟨f, hf, hv⟩))
    have hops : LitOps gs := by
      refine ⟨h6, h7, ?_, ?_⟩
      · intro h; rcases h8 _ h with h | ⟨_, h, _⟩; exacts [ho.tt h, by cases h]
      · intro h; rcases h8 _ h with h | ⟨_, h, _⟩; exacts [ho.ff h, by cases h]
    refine ⟨_, _, m ++ [(s1.freshVar, mkDisj (toSet gs))], by simp only [tsVisit, h1, Outcome.bind_ok]; rfl, ?_, ?_, ?_, ?_⟩
    · simp [TsState.define, h2]
    · simp only [TsState.define]; omega
    · intro p hp
      rcases List.mem_append.mp hp with hp | hp
      · exact h4 p hp
      · simp only [List.mem_singleton] at hp; subst hp
        exact Or.inr (Or.inl ⟨gs, hops.mkDisj (by omega), h7⟩)
    · right
      exact ⟨s1.freshVar, rfl, by simpa [TsState.freshVar] using h3, by simp [TsState.freshVar, TsState.define]⟩
  | neg f =>
    cases hc with
    | neg hcf hntt hnff hnneg =>
      by_cases ha : f.isAtomic = true
      · refine ⟨.neg f, s, [], by simp [tsVisit, ha], by simp, le_rfl, by simp, Or.inl ⟨rfl, ?_, rfl⟩⟩
        cases f with
        | ff => exact absurd rfl hnff
        | tt => exact absurd rfl hntt
        | bvar v => trivial
        | rel op a b => trivial
        | all vs f => simp [Fml.qdepth] at hq
        | neg g => exact absurd rfl (hnneg g)
        | conj fs => simp [Fml.isAtomic] at ha
        | disj fs => simp [Fml.isAtomic] at ha
      · obtain ⟨g, s1, m, h1, h2, h3, h4, h5⟩ := tsVisit_total f { s with next := s.next + 1 } hcf
          (by simpa [Fml.qdepth] using hq) (fun v hv => Nat.lt_succ_of_lt (hid v hv))
        simp only at h2 h3
        have hg : ∃ v, g = .bvar v := by
          rcases h5 with ⟨rfl, hlit, _⟩ | ⟨v, h, _⟩
          · exact absurd hlit.isAtomic ha
          · exact ⟨v, h⟩
        obtain ⟨v, rfl⟩ := hg
        refine ⟨.bvar s.freshVar, { s1 with map := s1.map ++ [(s.freshVar, notF (.bvar v))] },
          m ++ [(s.freshVar, notF (.bvar v))], ?_, ?_, ?_, ?_, ?_⟩
        · simp only [tsVisit, if_neg ha, h1, Outcome.bind_ok]
        · simp [h2]
        · simp only; omega
        · intro p hp
          rcases List.mem_append.mp hp with hp | hp
          · exact h4 p hp
          · simp only [List.mem_singleton] at hp; subst hp
            exact Or.inr (Or.inr ⟨v, QLit.notF_bvar v⟩)
        · right
          exact ⟨s.freshVar, rfl, by simp [TsState.freshVar], by simp [TsState.freshVar]; omega⟩
theorem tsVisitList_total (fs : List Fml) (s : TsState) (hn : fs.Nodup)
    (hc : ∀ f ∈ fs, Canon f) (htt : .tt ∉ fs) (hff : .ff ∉ fs) (hq : ∀ f ∈ fs, f.qdepth = 0)
    (hid : ∀ f ∈ fs, ∀ v ∈ f.fv, v.id < s.next) : TsTotalList fs s := by
  cases fs with
  | nil => exact ⟨[], s, [], by simp only [tsVisitList], by simp, le_rfl, by simp, by simp, by simp, by simp, by simp⟩
  | cons f fs =>
    obtain ⟨g, s1, m, h1, h2, h3, h4, h5⟩ := tsVisit_total f s (hc f (by simp)) (hq f (by simp))
      (hid f (by simp))
    obtain ⟨gs, s2, m', k1, k2, k3, k4, k5, k6, k7, k8⟩ := tsVisitList_total fs s1
      (List.nodup_cons.mp hn).2 (fun x hx => hc x (by simp [hx]))
      (fun h => htt (by simp [h])) (fun h => hff (by simp [h])) (fun x hx => hq x (by simp [hx]))
      (fun x hx v hv => lt_of_lt_of_le (hid x (by simp [hx]) v hv) h3)
    refine ⟨g :: gs, s2, m ++ m', ?_, by simp [h2, k2], by omega, ?_, by simp [k5], ?_, ?_, ?_⟩
    · simp only [tsVisitList, h1, k1, Outcome.bind_ok]
    · intro p hp
      rcases List.mem_append.mp hp with hp | hp
      exacts [h4 p hp, k4 p hp]
    · rw [List.nodup_cons]
      refine ⟨fun hg => ?_, k6⟩
      rcases h5 with ⟨rfl, _, _⟩ | ⟨h, rfl, hh1, hh2⟩
      · rcases k8 _ hg with hg' | ⟨v, rfl, hv1, _⟩
        · exact (List.nodup_cons.mp hn).1 hg'
        · have := hid (.bvar v) (by simp) v (by simp [Fml.fv]); omega
      · rcases k8 _ hg with hg' | ⟨v, hv, hv1, _⟩
        · have := hid (.bvar h) (by simp [hg']) h (by simp [Fml.fv]); omega
        · cases hv; omega
    · intro x hx
      simp only [List.mem_cons] at hx
      rcases hx with rfl | hx
      · rcases h5 with ⟨rfl, h, _⟩ | ⟨h, rfl, _⟩
        exacts [h, trivial]
      · exact k7 x hx
    · intro x hx
      simp only [List.mem_cons] at hx
      rcases hx with rfl | hx
      · rcases h5 with ⟨rfl, h, _⟩ | ⟨h, rfl, hh1, hh2⟩
        exacts [Or.inl (by simp), Or.inr ⟨h, rfl, hh1, by omega⟩]
      · rcases k8 x hx with h | ⟨v, rfl, hv1, hv2⟩
        exacts [Or.inl (by simp [h]), Or.inr ⟨v, rfl, by omega, hv2⟩]
end

theorem tsAdd_clause {f} (h : QClause f) : ∀ c ∈ tsAdd f, QClause c := by
  unfold tsAdd; split_ifs <;> simp [h]

theorem QLit.clause {f} (h : QLit f) : QClause f := Or.inl h

theorem tsEntry_total (head b : Variable) (f : Fml) (h : DefShape f) :
    ∃ cs, tsEntry head b f = .ok cs ∧ ∀ c ∈ cs, QClause c := by
  unfold tsEntry
  split_ifs
  · refine ⟨_, rfl, ?_⟩
    rcases h with ⟨gs, rfl, h⟩ | ⟨gs, rfl, h⟩ | ⟨v, rfl⟩
    · exact fun c hc => (h c hc).clause
    · intro c hc; simp [Fml.getClauses] at hc; subst hc; exact Or.inr ⟨gs, rfl, h⟩
    · intro c hc; simp [Fml.getClauses] at hc; subst hc; exact Or.inl trivial
  · have hb : QClause (notF (.bvar b)) := QLit.clause (QLit.notF (f := .bvar b) trivial)
    have hb' : QClause (.bvar b) := QLit.clause trivial
    rcases h with ⟨gs, rfl, h⟩ | ⟨gs, rfl, h⟩ | ⟨v, rfl⟩
    · refine ⟨_, rfl, ?_⟩
      intro c hc
      simp only [List.mem_append, List.mem_flatMap] at hc
      rcases hc with ⟨g, hg, hc⟩ | hc
      · exact tsAdd_clause (hb.orF (h g hg).clause) c hc
      · refine tsAdd_clause (QClause.orF (QClause.mkDisj ?_) hb') c hc
        intro x hx
        rw [mem_toSet, List.mem_map] at hx
        obtain ⟨g, hg, rfl⟩ := hx
        exact (h g hg).notF
    · refine ⟨_, rfl, ?_⟩
      intro c hc
      simp only [List.mem_append, List.mem_flatMap] at hc
      rcases hc with hc | ⟨g, hg, hc⟩
      · exact tsAdd_clause (hb.orF (Or.inr ⟨gs, rfl, h⟩)) c hc
      · rw [mem_toSet, List.mem_map] at hg
        obtain ⟨g, hg, rfl⟩ := hg
        exact tsAdd_clause ((h g hg).notF.clause.orF hb') c hc
    · refine ⟨_, rfl, ?_⟩
      have hv : QClause (.neg (.bvar v)) := QLit.clause trivial
      intro c hc
      simp only [List.mem_append] at hc
      rcases hc with hc | hc
      · exact tsAdd_clause (hb.orF hv) c hc
      · exact tsAdd_clause ((QLit.clause (QLit.notF (f := .neg (.bvar v)) trivial)).orF hb') c hc

theorem tsClauses_total (head : Variable) (m : List (Variable × Fml))
    (h : ∀ p ∈ m, DefShape p.2) : ∃ cs, tsClauses head m = .ok cs ∧ ∀ c ∈ cs, QClause c := by
  induction m with
  | nil => exact ⟨[], rfl, by simp⟩
  | cons p m ih =>
    obtain ⟨b, f⟩ := p
    obtain ⟨cs, h1, h2⟩ := tsEntry_total head b f (h (b, f) (by simp))
    obtain ⟨ds, h3, h4⟩ := ih (fun p hp => h p (by simp [hp]))
    refine ⟨cs ++ ds, by simp [tsClauses, h1, h3], ?_⟩
    intro c hc
    rcases List.mem_append.mp hc with hc | hc
    exacts [h2 c hc, h4 c hc]

theorem tseitin_total (next : Nat) (f : Fml) (hc : Canon f) (hq : f.qdepth = 0)
    (hid : ∀ v ∈ f.fv, v.id < next) :
    ∃ cs next', tseitin next f = .ok (cs, next') ∧ ∀ c ∈ cs, QClause c := by
  obtain ⟨g, s', m, h1, h2, h3, h4, h5⟩ := tsVisit_total f { next := next } hc hq hid
  simp only [List.nil_append] at h2
  simp only [tseitin, h1, Outcome.bind_ok]
  split_ifs with hm
  · rcases h5 with ⟨rfl, hl, _⟩ | ⟨v, rfl, _⟩
    · exact ⟨_, _, rfl, by simpa using hl.clause⟩
    · exact ⟨_, _, rfl, by simpa using QLit.clause (f := .bvar v) trivial⟩
  · rcases h5 with ⟨_, _, hm'⟩ | ⟨v, rfl, _⟩
    · rw [h2, hm'] at hm; exact absurd rfl hm
    · obtain ⟨cs, hc1, hc2⟩ := tsClauses_total v s'.map (by rw [h2]; exact h4)
      exact ⟨cs, s'.next, by simp [hc1], hc2⟩

end Verif.Proof
