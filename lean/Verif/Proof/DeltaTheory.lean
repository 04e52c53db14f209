import Verif.Proof.Accept
import Verif.Proof.BoolSat
import Verif.Proof.Theory
import Verif.Spec.Weak

/-!
# What a box accepted by the theory solver satisfies
-/

namespace Verif.Proof
open Verif Verif.Model Verif.Spec

theorem nextafter_le {d : Dbl} (hd : DblOk d) (q y : ℚ) : d.nextafter q y ≤ d.succ q := by
  unfold Dbl.nextafter
  have := hd.succ q; have := hd.pred q
  split_ifs <;> linarith

theorem le_nextafter {d : Dbl} (hd : DblOk d) (q y : ℚ) : d.pred q ≤ d.nextafter q y := by
  unfold Dbl.nextafter
  have := hd.succ q; have := hd.pred q
  split_ifs <;> linarith

theorem keeps_weak {d : Dbl} (hd : DblOk d) {t lo hi ex} {δ : ℚ} {x : ℝ} {op}
    (h : keeps d t lo hi x op) (h1 : d.succ hi < ex + δ) (h2 : ex - δ < d.pred lo) :
    weakRel (δ : ℝ) op x (ex : ℝ) := by
  have a1 : hi < ex + δ := (hd.succ hi).trans h1
  have a2 : ex - δ < lo := h2.trans (hd.pred lo)
  have b1 : (hi : ℝ) < ex + δ := by exact_mod_cast a1
  have b2 : (ex : ℝ) - δ < lo := by exact_mod_cast a2
  have c1 : ((d.nextafter hi d.minv : ℚ) : ℝ) < ex + δ := by
    exact_mod_cast (nextafter_le hd hi d.minv).trans_lt h1
  have c2 : (ex : ℝ) - δ < ((d.nextafter lo d.maxv : ℚ) : ℝ) := by
    exact_mod_cast h2.trans_le (le_nextafter hd lo d.maxv)
  cases op with
  | eq => obtain ⟨k1, k2⟩ := h; simp only [weakRel, abs_le]; constructor <;> linarith
  | neq => trivial
  | geq => simp only [keeps] at h; simp only [weakRel]; linarith
  | leq => simp only [keeps] at h; simp only [weakRel]; linarith
  | gt => simp only [keeps] at h; simp only [weakRel]; split at h <;> linarith
  | lt => simp only [keeps] at h; simp only [weakRel]; split at h <;> linarith

theorem weakRel_flip {δ : ℝ} {op x y} : weakRel δ (flipRel op) x y ↔ weakRel δ op y x := by
  cases op <;> simp only [weakRel, flipRel]
  · rw [abs_sub_comm]
  all_goals constructor <;> intro h <;> linarith

theorem asBound_weak {I : Interp} {δ : ℝ} {ρ : Valuation} {f v op lo hi ex}
    (h : asBound f = some (v, op, lo, hi, ex)) (hw : weakRel δ op (ρ v) (ex : ℝ)) :
    WeakHolds I δ ρ f := by
  have hnum : ∀ {e : Expr} {n : ℚ × ℚ × ℚ}, asNum e = some n → eval I ρ e = (n.2.2 : ℝ) := by
    intro e n hn
    cases e <;> simp only [asNum, Option.some.injEq, reduceCtorEq] at hn <;> subst hn <;>
      simp [eval]
  unfold asBound at h
  split at h
  · rename_i o w e hr
    simp only [Option.map_eq_some_iff, Prod.mk.injEq] at h
    obtain ⟨n, h1, rfl, rfl, rfl⟩ := h
    exact ⟨_, _, _, hr, by rw [hnum h1]; simpa [eval] using hw⟩
  · rename_i o e w hne hr
    simp only [Option.map_eq_some_iff, Prod.mk.injEq] at h
    obtain ⟨n, h1, rfl, rfl, rfl⟩ := h
    refine ⟨_, _, _, hr, ?_⟩
    rw [hnum h1]
    simpa [eval] using weakRel_flip.mp hw
  · cases h

theorem asBound_fine {d : Dbl} {δ : ℚ} {f v op lo hi ex o a b}
    (h : asBound f = some (v, op, lo, hi, ex)) (hr : asRel f = some (o, a, b))
    (hp : FineNum d δ a ∧ FineNum d δ b) : d.succ hi < ex + δ ∧ ex - δ < d.pred lo := by
  unfold asBound at h
  rw [hr] at h
  split at h
  · rename_i o w e hr'
    simp only [Option.some.injEq, Prod.mk.injEq] at hr'
    obtain ⟨rfl, rfl, rfl⟩ := hr'
    simp only [Option.map_eq_some_iff, Prod.mk.injEq] at h
    obtain ⟨n, h1, rfl, rfl, rfl⟩ := h
    exact hp.2 _ _ _ h1
  · rename_i o e w hne hr'
    simp only [Option.some.injEq, Prod.mk.injEq] at hr'
    obtain ⟨rfl, rfl, rfl⟩ := hr'
    simp only [Option.map_eq_some_iff, Prod.mk.injEq] at h
    obtain ⟨n, h1, rfl, rfl, rfl⟩ := h
    exact hp.1 _ _ _ h1
  · cases h

/-- A possibly negated relation with fine literals. -/
def FineF (d : Dbl) (δ : ℚ) (f : Fml) : Prop :=
  ∃ o a b, asRel f = some (o, a, b) ∧ FineNum d δ a ∧ FineNum d δ b

theorem isSimple_bound : ∀ {f : Fml} {o a b}, asRel f = some (o, a, b) → isSimpleRel f = true →
    (asBound f).isSome = true := by
  have key : ∀ {f : Fml} {o a b}, asRel f = some (o, a, b) → isSimpleRel f = true →
      (a.isNum && b.isVar) || (a.isVar && b.isNum) := by
    intro f
    induction f using Fml.rec (motive_1 := fun _ => True) (motive_3 := fun _ => True) with
    | rel op x y =>
      intro o a b h hs
      simp only [asRel, Option.some.injEq, Prod.mk.injEq] at h
      obtain ⟨rfl, rfl, rfl⟩ := h
      exact hs
    | neg f ih =>
      intro o a b h hs
      simp only [asRel, Option.map_eq_some_iff, Prod.mk.injEq] at h
      obtain ⟨⟨o', a', b'⟩, h1, rfl, h2⟩ := h
      simp only [Prod.mk.injEq] at h2
      obtain ⟨rfl, rfl⟩ := h2
      exact ih h1 hs
    | _ => first | trivial | (intro o a b h; simp [asRel] at h)
  intro f o a b h hs
  have := key h hs
  unfold asBound
  rw [h]
  cases a <;> cases b <;> simp_all [Expr.isNum, Expr.isVar, asNum]

theorem updOk_sub {b v P b'} (h : UpdOk b v P b') (hv : v ∈ b.vars) : SubBox b' b := by
  intro hb
  obtain ⟨h1, h2, h3, -⟩ := h.live hb
  refine ⟨h1, fun i x hx => ?_⟩
  by_cases hi : i = b.index v
  · subst hi
    rw [← getV_congr h.shape.1] at hx
    exact ((h3 x).mp hx).1
  · rwa [h2 i hi] at hx

theorem filter_weak {d : Dbl} (hd : DblOk d) {δ : ℚ} {f : Fml} {b b' : Box} {r : FilterRes}
    (wf : BoxWf b) (hv : ∀ v ∈ f.fv, v ∈ b.vars) (h : Filter.filter d f b = .ok (r, b')) :
    SubBox b' b ∧ (r ≠ .notFiltered → (asBound f).isSome = true) ∧
    ∀ v op n, asBound f = some (v, op, n) → FineF d δ f → b'.bot = false →
      ∀ I ρ, InItv (ρ v) (b'.getV v) → WeakHolds I δ ρ f := by
  rcases filter_cases h with ⟨h1, rfl, rfl⟩ | ⟨v, op, lo, hi, ex, h1, h2⟩
  · exact ⟨subBox_refl _, by simp, fun v op n h => by rw [h1] at h; cases h⟩
  · obtain ⟨-, b2, -, -⟩ := asBound_holds (I := ⟨fun _ _ => 0, fun _ _ _ => 0⟩)
      (ρ := fun _ => 0) h1
    have hvb := hv v b2
    obtain ⟨a1, -, -⟩ := acts_ok wf hvb h2
    refine ⟨updOk_sub a1 hvb, fun _ => by rw [h1]; rfl, fun w op' n h3 hf hb I ρ hx => ?_⟩
    rw [h1] at h3
    cases h3
    obtain ⟨o, x, y, hr, hfine⟩ := hf
    obtain ⟨c1, c2⟩ := asBound_fine h1 hr hfine
    refine asBound_weak h1 (keeps_weak (t := v.type) hd ?_ c1 c2)
    exact (((a1.live hb).2.2.1 _).mp hx).2

theorem inBox_getV {ρ : Valuation} {b : Box} {v} (h : InBox ρ b) (hv : v ∈ b.vars) :
    InItv (ρ v) (b.getV v) := h.2 _ v (index_of_mem hv).2

theorem buildLoop_weak {d : Dbl} (hd : DblOk d) {δ : ℚ} {vs : List Variable} {U : List Fml}
    (hU : LitsOk U vs) : ∀ {fs cache s o cache' s'}, (∀ f ∈ fs, f ∈ U) →
    buildLoop d fs cache s = .ok (o, cache', s') → Shape vs s.box →
    SubBox s'.box s.box ∧ s'.box.vars = vs ∧
    (o ≠ none → ∀ f ∈ fs, (asBound f).isSome = true → FineF d δ f → ∀ I ρ, InBox ρ s'.box →
      WeakHolds I δ ρ f)
  | [], cache, s, o, cache', s', _, h, hs => by
    simp only [buildLoop, Outcome.ok.injEq, Prod.mk.injEq] at h
    obtain ⟨rfl, rfl, rfl⟩ := h
    exact ⟨subBox_refl _, hs.1, by simp⟩
  | f :: fs, cache, s, o, cache', s', hf, h, hs => by
    have hfU := hf f (by simp)
    have hfs : ∀ g ∈ fs, g ∈ U := fun g hg => hf g (by simp [hg])
    have hfv : ∀ v ∈ f.fv, v ∈ s.box.vars := fun v hv => by rw [hs.1]; exact hU.vars f hfU v hv
    simp only [buildLoop] at h
    obtain ⟨⟨r, b'⟩, h1, h2⟩ := bindO_ok h
    obtain ⟨q1, q2, -⟩ := filter_spec (I := ⟨fun _ _ => 0, fun _ _ _ => 0⟩) hd hs.2 hfv
      (hU.rc f hfU) h1
    obtain ⟨w1, -, w3⟩ := filter_weak hd (δ := δ) hs.2 hfv h1
    have hsb' : Shape vs b' := ⟨q1.trans hs.1, q2⟩
    have step : ∀ {t : CStatus} {o2 c1 c2 s2}, t.box = b' →
        buildLoop d fs c1 t = .ok (o2, c2, s2) →
        SubBox s2.box s.box ∧ s2.box.vars = vs ∧ (o2 ≠ none → ∀ g ∈ f :: fs,
          (asBound g).isSome = true → FineF d δ g → ∀ I ρ, InBox ρ s2.box → WeakHolds I δ ρ g) := by
      intro t o2 c1 c2 s2 ht hb
      obtain ⟨a1, a2, a3⟩ := buildLoop_weak hd (δ := δ) hU hfs hb (by rw [ht]; exact hsb')
      rw [ht] at a1
      refine ⟨subBox_trans a1 w1, a2, fun ho g hg hsome hfine I ρ hρ => ?_⟩
      rcases List.mem_cons.mp hg with rfl | hg
      · obtain ⟨⟨v, op, n⟩, hn⟩ := Option.isSome_iff_exists.mp hsome
        have hin : InBox ρ b' := subBox_in a1 (a2.trans hsb'.1.symm) hρ
        have hvm : v ∈ b'.vars := by
          rw [q1]
          exact hfv v (asBound_holds (I := I) (ρ := ρ) (by rw [hn])).2.1
        exact w3 v op n hn hfine hin.1 I ρ (inBox_getV hin hvm)
      · exact a3 ho g hg hsome hfine I ρ hρ
    cases r with
    | notFiltered =>
      simp only at h2
      obtain ⟨⟨c, cc⟩, h3, h4⟩ := bindO_ok h2
      obtain ⟨⟨o2, c2, s2⟩, h5, h6⟩ := bindO_ok h4
      simp only [Outcome.ok.injEq, Prod.mk.injEq] at h6
      obtain ⟨rfl, rfl, rfl⟩ := h6
      obtain ⟨a1, a2, a3⟩ := step (by
        split
        · rfl
        · rename_i hne; push Not at hne; exact hne) h5
      exact ⟨a1, a2, fun ho => a3 (by rintro rfl; exact ho rfl)⟩
    | withChange =>
      simp only at h2
      split at h2
      · simp only [Outcome.ok.injEq, Prod.mk.injEq] at h2
        obtain ⟨rfl, rfl, rfl⟩ := h2
        exact ⟨w1, hsb'.1, by simp⟩
      · exact step (by rfl) h2
    | withoutChange =>
      simp only at h2
      exact step (by rfl) h2

theorem buildContractor_weak {cfg : TCfg} (hd : DblOk cfg.dbl) {δ : ℚ} {vs fs cache s o cache' s'}
    (hU : LitsOk fs vs) (h : buildContractor cfg fs cache s = .ok (o, cache', s'))
    (hs : Shape vs s.box) :
    SubBox s'.box s.box ∧
    (o ≠ none → ∀ f ∈ fs, (asBound f).isSome = true → FineF cfg.dbl δ f → ∀ I ρ, InBox ρ s'.box →
      WeakHolds I δ ρ f) := by
  unfold buildContractor at h
  split at h
  · rename_i he
    simp only [Outcome.ok.injEq, Prod.mk.injEq] at h
    obtain ⟨rfl, rfl, rfl⟩ := h
    refine ⟨subBox_refl _, fun _ f hf => ?_⟩
    simp at he; subst he; cases hf
  · obtain ⟨⟨o1, c1, s1⟩, h1, h2⟩ := bindO_ok h
    obtain ⟨r1, r2, r3⟩ := buildLoop_weak hd (δ := δ) hU (fun f hf => hf) h1 hs
    cases o1 with
    | none =>
      simp only [Outcome.ok.injEq, Prod.mk.injEq] at h2
      obtain ⟨rfl, rfl, rfl⟩ := h2
      exact ⟨r1, by simp⟩
    | some cs =>
      simp only at h2
      split at h2
      · obtain ⟨q, h3, h4⟩ := bindO_ok h2
        simp only [Outcome.bind_ok, Outcome.ok.injEq, Prod.mk.injEq] at h4
        obtain ⟨rfl, rfl, rfl⟩ := h4
        exact ⟨r1, fun _ => r3 (by simp)⟩
      · simp only [Outcome.bind_ok, Outcome.ok.injEq, Prod.mk.injEq] at h2
        obtain ⟨rfl, rfl, rfl⟩ := h2
        exact ⟨r1, fun _ => r3 (by simp)⟩

theorem evalBox_from {env} : ∀ {fs cand s s' cand'}, evalBox env fs cand s = .ok (s', some cand') →
    ∀ i ∈ cand', i ∈ cand ∨ ∃ f ∈ fs, ∃ n iv, evalLit env n s.box f = .ok (.unknown, iv) ∧
      i ∈ candidates env s.box f iv
  | [], cand, s, s', cand', h => by
    simp only [evalBox, Run.ok.injEq, Prod.mk.injEq, Option.some.injEq] at h
    obtain ⟨rfl, rfl⟩ := h
    exact fun i hi => .inl hi
  | f :: fs, cand, s, s', cand', h => by
    simp only [evalBox] at h
    obtain ⟨⟨vd, iv⟩, h1, h2⟩ := bindR_ok h
    have hb : (if f.isAll then { s with tick := s.tick + 1 } else s).box = s.box := by
      split <;> rfl
    cases vd with
    | unsat => simp at h2
    | valid =>
      simp only at h2
      intro i hi
      rcases evalBox_from h2 i hi with h | ⟨g, hg, n, iv', h3, h4⟩
      · exact .inl h
      · rw [hb] at h3 h4
        exact .inr ⟨g, by simp [hg], n, iv', h3, h4⟩
    | unknown =>
      simp only at h2
      intro i hi
      rcases evalBox_from h2 i hi with h | ⟨g, hg, n, iv', h3, h4⟩
      · rcases List.mem_append.mp h with h | h
        · exact .inr ⟨f, by simp, s.tick, iv, h1, h⟩
        · exact .inl h
      · rw [hb] at h3 h4
        exact .inr ⟨g, by simp [hg], n, iv', h3, h4⟩

/-- If the candidates for splitting are not empty and the brancher gives up, the search is stuck
because of one of the constraints. -/
theorem stuck_of {env cfg fs} {t t' : CStatus} {cand}
    (h : evalBox env fs [] t = .ok (t', some cand)) (hfs : ∀ f ∈ fs, f.isAll = false)
    (hv : ∀ f ∈ fs, ∀ v ∈ f.fv, v ∈ t.box.vars)
    (hne : bits t.box cand ≠ [])
    (hbr : (if 1 < cfg.jobs then Box.branchLargestFirst env.fp t.box (bits t.box cand)
      else env.brancher t.box (bits t.box cand)) = .ok none) :
    ∃ f ∈ fs, ∀ op a e, asRel f = some (op, a, e) → StuckOn env cfg t.box a e := by
  obtain ⟨i, hi⟩ := List.exists_mem_of_ne_nil _ hne
  have hic : i ∈ cand := by
    simp only [bits, List.mem_filter, decide_eq_true_eq] at hi; exact hi.2
  rcases evalBox_from h i hic with h0 | ⟨f, hf, n, iv, h1, h2⟩
  · cases h0
  · refine ⟨f, hf, fun op a e hr => ?_⟩
    unfold candidates at h2
    split at h2
    · rename_i hw
      split at h2
      · cases h2
      · rename_i hsn
        simp only [Bool.or_eq_true, not_or, Bool.not_eq_true] at hsn
        simp only [evalLit, hfs f hf, Bool.false_eq_true, if_false] at h1
        refine ⟨f, op, iv, _, hr, hsn.1, lift_ok h1, hw, fun v hvf => ?_, hbr⟩
        -- the candidates of `f` are among the candidates
        obtain ⟨n', v', iv', g1, -, g3⟩ := (evalBox_some h).2 f hf
        simp only [evalLit, hfs f hf, Bool.false_eq_true, if_false] at g1
        rw [h1] at g1
        cases g1
        have hin : t.box.index v ∈ cand := by
          refine g3 rfl ?_
          unfold candidates
          rw [if_pos hw, if_neg (by simp [hsn])]
          exact List.mem_map_of_mem hvf
        have hvb := hv f hf v hvf
        simp only [bits, List.mem_filter, List.mem_range, decide_eq_true_eq]
        refine ⟨?_, hin⟩
        simp only [Box.index, hvb, if_true, Box.size]
        exact List.idxOf_lt_length_iff.mpr hvb
    · cases h2

theorem theoryCheck_sat {D I env} {cfg : TCfg} (he : EnvOk D I env) (hd : DblOk cfg.dbl)
    (hfp : DiamOk env.fp) (hδ : 0 ≤ env.delta) 
    {cache tick b fs b' cache' tick'} (wf : BoxWf b) (hl : LitsOk fs b.vars)
    (hc : CacheOk b.vars cache) (hfs : ∀ f ∈ fs, FineF cfg.dbl env.delta f ∧ f.fv ≠ [])
    (h : theoryCheck env cfg cache tick b fs = .ok (.sat b', cache', tick'))
    (hsp : ∀ f ∈ fs, ∀ op a e, asRel f = some (op, a, e) → ¬ StuckOn env cfg b' a e) :
    Shape b.vars b' ∧ SubBox b' b ∧ b'.bot = false ∧ ∀ f ∈ fs, ∀ ρ, InBox ρ b' → DefF D I ρ f →
      WeakHolds I env.delta ρ f := by
  unfold theoryCheck at h
  obtain ⟨⟨o, c1, s⟩, h1, h2⟩ := bindR_ok h
  obtain ⟨r1, r2, r3, r4, r5, r6, r7⟩ := buildContractor_spec (D := D) (I := I) hd hl (lift_ok h1)
    ⟨rfl, wf⟩ hc
  obtain ⟨w1, w2⟩ := buildContractor_weak hd (δ := env.delta) hl (lift_ok h1) ⟨rfl, wf⟩
  cases o with
  | none =>
    simp only at h2
    split at h2
    · obtain ⟨e, h7, h8⟩ := bindR_ok h2
      simp at h8
    · cases h2
  | some c =>
    simp only at h2
    obtain ⟨_, h3, h4⟩ := bindR_ok h2
    obtain ⟨⟨res, s'⟩, h5, h6⟩ := bindR_ok h4
    have hatoms := r5 c rfl
    simp only at h6
    split at h6
    · obtain ⟨e, h7, h8⟩ := bindR_ok h6
      simp at h8
    · rename_i hemp
      simp only [Run.ok.injEq, Prod.mk.injEq, TAnswer.sat.injEq] at h6
      obtain ⟨rfl, -, -⟩ := h6
      have hsub := atoms_sub he hatoms
      have hall : ∀ f ∈ fs, f.isAll = false := fun f hf => by
        obtain ⟨op, a, e, hr, -⟩ := (hfs f hf).1
        cases f <;> first | rfl | simp [asRel] at hr
      have hacc : Shape b.vars s'.box ∧ SubBox s'.box s.box ∧ ∃ (t t' : CStatus) (cand : List Nat),
          t.box = s'.box ∧ s'.box.bot = false ∧ evalBox env fs [] t = .ok (t', some cand) ∧
          bits s'.box cand = [] := by
        have hres : res = true := by
          cases res with
          | true => rfl
          | false =>
            exfalso
            unfold icp at h5
            split at h5
            · exact hemp (icpPar_unsat tracks_false (pruneTracks_false c) evalTracks_false
                branchTracks_false (by omega) h5).2.1
            · exact hemp ((icpLoop_empty h5).2 rfl (Or.inl (by simp)))
        subst hres
        unfold icp at h5
        split at h5
        · rename_i hj
          obtain ⟨k1, k2, t, t', cand, k3, k4, k5, k6, k7⟩ := icpPar_sat hsub he.cut r1 h5
          refine ⟨k1, k2, t, t', cand, k3, k5, k6, ?_⟩
          rcases k7 with k7 | k7
          · exact k7
          · by_contra hne
            rw [← k3] at hne
            obtain ⟨f, hf, hst⟩ := stuck_of (cfg := cfg) k6 hall
              (fun f hf v hv => by rw [k3, k1.1]; exact hl.vars f hf v hv) hne
              (by rw [if_pos hj, k3]; exact k7)
            obtain ⟨op, a, e, hr, -⟩ := (hfs f hf).1
            exact hsp f hf op a e hr (by rw [← k3]; exact hst op a e hr)
        · rename_i hj
          obtain ⟨k1, ⟨t, t', cand, k3, k4, k5, k6, k7⟩, p, hp, k8⟩ := icpLoop_sat hsub he.br h5
            (by intro p hp; simp at hp; subst hp; exact r1)
          simp at hp; subst hp
          refine ⟨k1, k8, t, t', cand, k3, k5, k6, ?_⟩
          rcases k7 with k7 | k7
          · exact k7
          · by_contra hne
            rw [← k3] at hne
            obtain ⟨f, hf, hst⟩ := stuck_of (cfg := cfg) k6 hall
              (fun f hf v hv => by rw [k3, k1.1]; exact hl.vars f hf v hv) hne
              (by rw [if_neg hj, k3]; exact k7)
            obtain ⟨op, a, e, hr, -⟩ := (hfs f hf).1
            exact hsp f hf op a e hr (by rw [← k3]; exact hst op a e hr)
      obtain ⟨k1, k2, t, t', cand, k3, k4, k5, k6⟩ := hacc
      refine ⟨k1, subBox_trans k2 w1, k4, fun f hf ρ hρ hdef => ?_⟩
      obtain ⟨hfine, hfv⟩ := hfs f hf
      obtain ⟨op, a, e, hr, hfi⟩ := id hfine
      cases hsr : isSimpleRel f with
      | true =>
        exact w2 (by simp) f hf (isSimple_bound hr hsr) hfine I ρ
          (subBox_in k2 (k1.1.trans r1.1.symm) hρ)
      | false =>
        refine accepted_weak he.ops hfp hδ hl (s := t) (by rw [k3]; exact k1.1) k5
          (by rw [k3]; exact k6) hf (hall f hf) hsr hfv (by rw [k3]; exact hρ) hdef

end Verif.Proof
