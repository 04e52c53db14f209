import Verif.Proof.TerminatePar
import Verif.Proof.DeltaInv
import Mathlib.Data.Fintype.BigOperators
import Mathlib.Data.Fintype.Option

/-!
# A check ends: lemmas
-/

namespace Verif.Proof
open Verif Verif.Model Verif.Spec

variable {G : Finset EQ}

/-! ## The Boolean values -/

theorem writeBools_grid (h0 : EQ.fin 0 ∈ G) (h1 : EQ.fin 1 ∈ G) :
    ∀ (ps : List (Variable × Bool)) (b : Box), Bounded G b → IntsSized b →
      Bounded G (writeBools b ps) ∧ IntsSized (writeBools b ps)
  | [], b, hb, hz => ⟨hb, hz⟩
  | p :: ps, b, hb, hz => by
    rw [writeBools]
    have e : ∀ x : Bool, (Itv.point (if x then 1 else 0)) = ⟨.fin (if x then 1 else 0),
        .fin (if x then 1 else 0)⟩ := fun _ => rfl
    have hg : EQ.fin (if p.2 then 1 else 0) ∈ G := by split <;> assumption
    refine writeBools_grid h0 h1 ps _ (set_bounded ⟨hg, hg⟩ hb) ?_
    intro hbot i hi
    have hbot : b.bot = false := hbot
    have := hz hbot i hi
    unfold IntSized at this ⊢
    rw [Box.setV, get_put]
    split
    · rw [e]
      dsimp only
      rw [EQ.fin_le_fin, EQ.fin_le_fin]
      split <;> norm_num
    · exact this

/-! ## Learned clauses -/

theorem find_table {s : AbsState} (hn : (s.table.map Prod.snd).Nodup) {v : Variable} {a : Fml}
    (h : (v, a) ∈ s.table) : s.find a = some v := by
  unfold AbsState.find
  generalize s.table = T at *
  induction T with
  | nil => cases h
  | cons p T ih =>
    rw [List.map_cons, List.nodup_cons] at hn
    rw [List.find?_cons]
    by_cases hp : p.2 = a
    · simp only [hp, decide_true, Option.map_some]
      rcases List.mem_cons.mp h with h | h
      · rw [← h]
      · exact absurd (List.mem_map.mpr ⟨_, h, hp.symm⟩) hn.1
    · simp only [hp, decide_false]
      rcases List.mem_cons.mp h with h | h
      · exact absurd (by rw [← h]) hp
      · exact ih hn.2 h

/-- An atom of the table: a relation or, if `Q`, a quantified formula. -/
def Atm (Q : Prop) (a : Fml) : Prop :=
  (∃ op x y, a = .rel op x y) ∨ (∃ qs g, a = .all qs g) ∧ Q

theorem Canon.atm {P : RelOp → Expr → Expr → Prop} {Q a} (h : Canon P a) : Atm Q a := by
  obtain ⟨op, x, y, e, _⟩ := h
  exact .inl ⟨op, x, y, e⟩

theorem Atm.all {Q a} (h : Atm Q a) (b : Bool) (ha : (if b then a else notF a).isAll = true) : Q := by
  rcases h with ⟨op, x, y, rfl⟩ | ⟨_, hQ⟩
  · cases b <;> simp [notF, Fml.isAll] at ha
  · exact hQ

theorem Atm.isAll {Q a} (h : Atm Q a) (b : Bool) (ha : (if b then a else notF a).isAll = true) :
    a.isAll = true := by
  rcases h with ⟨op, x, y, rfl⟩ | ⟨⟨qs, g, rfl⟩, _⟩
  · cases b <;> simp [notF, Fml.isAll] at ha
  · rfl

theorem Atm.same {Q a} (h : Atm Q a) (b : Bool) (ha : (if b then a else notF a).isAll = true) :
    (if b then a else notF a) = a := by
  rcases h with ⟨op, x, y, rfl⟩ | ⟨⟨qs, g, rfl⟩, _⟩
  · cases b <;> simp [notF, Fml.isAll] at ha
  · cases b
    · simp [notF, Fml.isAll] at ha
    · rfl

theorem convert_lit {Q : Prop} {s : AbsState} (ht : TabInv s) {v : Variable}
    {a : Fml} (h : (v, a) ∈ s.table) (hc : Atm Q a) (b : Bool) :
    absConvert (if b then a else notF a) s = (if b then .bvar v else .neg (.bvar v), s) := by
  have hf := find_table ht.abs.nodup h
  have hv : absVisit a s = (.bvar v, s) := by
    rw [absVisit.eq_def, hf]
  cases b with
  | true => simpa [absConvert] using hv
  | false =>
    have hno : s.find (.neg a) = none := by
      cases hn : s.find (.neg a) with
      | none => rfl
      | some w => exact absurd (ht.simple _ (find_some hn)) (by simp [Simple])
    have hneg : notF a = .neg a := by
      rcases hc with ⟨op, x, y, rfl⟩ | ⟨⟨qs, g, rfl⟩, _⟩ <;> rfl
    simp only [absConvert, Bool.false_eq_true, if_false, hneg]
    rw [absVisit, hno]
    simp only [hv, notF, reduceCtorEq, if_false]

/-- The SAT variable and its value for a theory literal. -/
def litOf (b : Bool) (n : Nat) : Int := if b then -(n : Int) else n

theorem learned_lits {Q : Prop} {s : SatState} (ht : TabInv s.abs)
    (hT : ∀ p ∈ s.abs.table, Atm Q p.2) {th : List (Variable × Bool)} :
    ∀ {E ls s'}, (∀ f ∈ E, ∃ v b a, (v, b) ∈ th ∧ (v, a) ∈ s.abs.table ∧ f = if b then a else notF a) →
      learnedLits s E = .ok (ls, s') →
      s' = s ∧ ∀ l ∈ ls, ∃ v b n, (v, b) ∈ th ∧ s.toSat.map v.id = some n ∧ l = litOf b n
  | [], ls, s', _, h => by cases h; exact ⟨rfl, by simp⟩
  | f :: E, ls, s', hE, h => by
    simp only [learnedLits] at h
    obtain ⟨l, h1, h⟩ := bindO_ok h
    obtain ⟨⟨ls', s2⟩, h2, h⟩ := bindO_ok h
    cases h
    obtain ⟨v, b, a, m1, m2, rfl⟩ := hE f (List.mem_cons_self ..)
    rw [convert_lit ht m2 (hT _ m2) b] at h1 h2
    obtain ⟨i1, i2⟩ := learned_lits ht hT (fun g hg => hE g (List.mem_cons_of_mem _ hg)) h2
    refine ⟨i1, fun x hx => ?_⟩
    rcases List.mem_cons.mp hx with rfl | hx
    · have hat : ∀ n, s.toSat.at? v.id = .ok n → s.toSat.map v.id = some n := by
        intro n hn
        unfold ScopedMap.at? at hn
        cases hm : s.toSat.map v.id with
        | none => rw [hm] at hn; cases hn
        | some k => rw [hm] at hn; cases hn; rfl
      cases b with
      | true =>
        simp only [if_true, notF, reduceCtorEq, if_false, satLit] at h1
        split at h1
        · obtain ⟨n, h3, h4⟩ := bindO_ok h1
          cases h4
          exact ⟨v, true, n, m1, hat n h3, rfl⟩
        · cases h1
      | false =>
        simp only [Bool.false_eq_true, notF, reduceCtorEq, if_false, satLit] at h1
        split at h1
        · obtain ⟨n, h3, h4⟩ := bindO_ok h1
          cases h4
          exact ⟨v, false, n, m1, hat n h3, rfl⟩
        · cases h1
    · exact i2 x hx

/-! ## Assignments that satisfy the clauses -/

/-- The literal is true in the partial assignment. -/
def LitP {M : Nat} (σ : Fin (M + 1) → Option Bool) (l : Int) : Prop :=
  ∃ h : l.natAbs < M + 1, (0 < l ∧ σ ⟨_, h⟩ = some true) ∨ (l < 0 ∧ σ ⟨_, h⟩ = some false)

open Classical in
/-- The partial assignments that make a literal of every clause true. -/
noncomputable def livePs (M : Nat) (cs : List (List Int)) : Finset (Fin (M + 1) → Option Bool) :=
  Finset.univ.filter fun σ => ∀ c ∈ cs, ∃ l ∈ c, LitP σ l

theorem livePs_card (M : Nat) (cs : List (List Int)) : (livePs M cs).card ≤ 3 ^ (M + 1) := by
  refine le_trans (Finset.card_le_univ _) ?_
  simp [Fintype.card_fun, Fintype.card_option]

/-- The values that PicoSAT reports. -/
def readP (M : Nat) (d : Nat → Int) : Fin (M + 1) → Option Bool :=
  fun i => if d i = 0 then none else some (decide (d i = 1))

theorem livePs_lt {M : Nat} {cs : List (List Int)} {d : Nat → Int} {ls : List Int}
    (hsat : ∀ c ∈ cs, ∃ l ∈ c, (0 < l ∧ d l.natAbs = 1) ∨ (l < 0 ∧ d l.natAbs ≠ 0 ∧ d l.natAbs ≠ 1))
    (hM : ∀ c ∈ cs, ∀ l ∈ c, l.natAbs ≤ M)
    (hls : ∀ l ∈ ls, ∃ b n, l = litOf b n ∧ d n ≠ 0 ∧ b = decide (d n = 1)) :
    (livePs M (cs ++ [ls])).card < (livePs M cs).card := by
  classical
  refine Finset.card_lt_card ?_
  rw [Finset.ssubset_iff_of_subset]
  · refine ⟨readP M d, ?_, ?_⟩
    · simp only [livePs, Finset.mem_filter, Finset.mem_univ, true_and]
      intro c hc
      obtain ⟨l, hl, h⟩ := hsat c hc
      refine ⟨l, hl, Nat.lt_succ_of_le (hM c hc l hl), ?_⟩
      rcases h with ⟨h1, h2⟩ | ⟨h1, h2, h3⟩
      · exact Or.inl ⟨h1, by simp [readP, h2]⟩
      · exact Or.inr ⟨h1, by simp [readP, h2, h3]⟩
    · simp only [livePs, Finset.mem_filter, Finset.mem_univ, true_and, not_forall]
      refine ⟨ls, by simp, ?_⟩
      rintro ⟨l, hl, hlt, ht⟩
      obtain ⟨b, n, rfl, h1, h2⟩ := hls l hl
      have hn : (litOf b n).natAbs = n := by unfold litOf; split <;> simp
      simp only [readP, hn, h1, if_false, Option.some.injEq] at ht
      rw [← h2] at ht
      unfold litOf at ht
      cases b with
      | true => simp at ht; omega
      | false => simp at ht; omega
  · intro σ hσ
    simp only [livePs, Finset.mem_filter, Finset.mem_univ, true_and] at hσ ⊢
    exact fun c hc => hσ c (List.mem_append.mpr (.inl hc))

/-! ## The loop -/

theorem readModel_length {s : SatState} {d : Nat → Int} : ∀ is : List Nat,
    (readModel s d is).theory.length ≤ is.length
  | [] => by simp [readModel]
  | i :: is => by
    have := readModel_length (s := s) (d := d) is
    simp only [readModel, List.length_cons]
    split
    · omega
    · split
      · omega
      · split
        · simp only [List.length_cons]; omega
        · split
          · omega
          · show (readModel s d is).theory.length ≤ _
            omega

theorem theoryLits_length {s : SatState} : ∀ {ps fs}, theoryLits s ps = .ok fs → fs.length = ps.length
  | [], fs, h => by cases h; rfl
  | p :: ps, fs, h => by
    simp only [theoryLits] at h
    obtain ⟨a, _, h⟩ := bindO_ok h
    obtain ⟨as, h2, h⟩ := bindO_ok h
    cases h
    simp [theoryLits_length h2]

theorem checkLoop_ends {cfg : CCfg} {vs : List Variable} {H : Variable → Option Nat}
    (hd : DblOk cfg.th.dbl) (hp : PicosatOk cfg.ps) (hn : vs.Nodup)
    (hH : ∀ (i : Nat) v, vs[i]? = some v → H v = some i) {A : List Variable → Prop}
    (hAv : ∀ ws, A ws → ws = vs) {D I} (he : EnvOk D I cfg.env)
    (hG : GridOps G cfg.env.ib) (hbr : BranchGrid G cfg.env.brancher)
    (h0 : EQ.fin 0 ∈ G) (h1 : EQ.fin 1 ∈ G) {M : Nat}
    (hj : ParTurns G cfg.env cfg.th vs.length)
    (hk : pruneBound G vs.length (M + 2) ≤ cfg.env.fuel) (hs : searchBound G vs.length ≤ cfg.th.fuel) :
    ∀ n box s cache tick, Shape vs box → SatStr vs s → (∀ v ∈ vs, v.id < s.abs.next) →
      CacheInv H A cache → SatD s → (∀ p ∈ s.abs.table, Atm (A vs) p.2) → s.maxVar = M →
      Bounded G box → IntsSized box →
      (∀ p ∈ s.abs.table, ∀ b : Bool, LitGrid G cfg.th.dbl (if b then p.2 else notF p.2)) →
      EvalEnds G cfg.env vs (s.abs.table.map (·.2)) →
      ((∃ p ∈ s.abs.table, p.2.isAll = true) → box.bot = false ∧
        ∀ p ∈ s.abs.table, ∀ b : Bool, ¬ IntStrict (if b then p.2 else notF p.2)) →
      (livePs M s.clauses.vec).card < n → checkLoop cfg n box s cache tick ≠ .oof
  | 0, box, s, cache, tick, _, _, _, _, _, _, _, _, _, _, _, _, hcard => by omega
  | n + 1, box, s, cache, tick, hsh, hst, hv, hc, hsd, hT, hM, hb, hz, hlg, hev, hq, hcard => by
    unfold checkLoop
    refine run_bind_oof (lift_oof _) fun r hr => ?_
    obtain ⟨sm, s1⟩ := r
    have hr := lift_ok hr
    cases sm with
    | none => intro h; cases h
    | some m =>
      dsimp only
      obtain ⟨e, hbool, hth⟩ := satCheck_some hst hr
      obtain ⟨d, hps, hm⟩ : ∃ d, cfg.ps s.calls s.popUsed s.maxVar s.clauses.vec = .sat d ∧
          m = readModel s d ((List.range s.maxVar).map (· + 1)) := by
        unfold satCheck at hr
        dsimp only at hr
        split at hr
        · rename_i d hd
          cases hr
          exact ⟨d, hd, rfl⟩
        · cases hr
        · cases hr
      have hst1 : SatStr vs s1 := by rw [e]; exact satStr_calls hst
      have hsd1 : SatD s1 := by rw [e]; exact ⟨hsd.inv, hsd.lsym⟩
      have ha1 : s1.abs = s.abs := by rw [e]
      have hw := writeBools_shape (ps := m.bool) hsh
      obtain ⟨hwb, hwz⟩ := writeBools_grid h0 h1 m.bool box hb hz
      split
      · intro h; cases h
      · refine run_bind_oof (lift_oof _) fun fs hfs => ?_
        have hfs := lift_ok hfs
        obtain ⟨t1, _⟩ := theoryLits_mem hfs
        have hatom := hth fs hfs
        have hgrid : ∀ f ∈ fs, LitGrid G cfg.th.dbl f := by
          intro f hf
          obtain ⟨v, b, a, _, g1, rfl⟩ := t1 f hf
          rw [ha1] at g1
          exact hlg _ g1 b
        have hevs : EvalEnds G cfg.env vs fs := by
          intro n f hf ha
          obtain ⟨v, b, a, _, g1, rfl⟩ := t1 f hf
          rw [ha1] at g1
          have e : (if b then a else notF a) = a := (hT _ g1).same b ha
          refine hev n _ ?_ ha
          rw [e]
          exact List.mem_map.mpr ⟨_, g1, rfl⟩
        have hlen : fs.length ≤ M := by
          rw [theoryLits_length hfs, hm, ← hM]
          refine le_trans (readModel_length _) ?_
          simp
        have hmade : CacheMade (writeBools box m.bool).vars cache := fun p hp => by
          obtain ⟨b, hb, _, hA, _⟩ := hc p.1 p.2 hp
          exact ⟨b, hb, fun ha => by rw [hw.1]; exact hAv _ (hA ha)⟩
        have hqs : (∃ f ∈ fs, f.isAll = true) → (writeBools box m.bool).bot = false ∧
            ∀ f ∈ fs, ¬ IntStrict f := by
          rintro ⟨f, hf, ha⟩
          obtain ⟨v, b, a, _, g1, rfl⟩ := t1 f hf
          rw [ha1] at g1
          obtain ⟨q1, q2⟩ := hq ⟨_, g1, (hT _ g1).isAll b ha⟩
          refine ⟨by rw [writeBools_bot]; exact q1, fun f hf => ?_⟩
          obtain ⟨v, b, a, _, g1, rfl⟩ := t1 f hf
          rw [ha1] at g1
          exact q2 _ g1 b
        refine run_bind_oof ?_ fun t ht => ?_
        · refine theoryCheck_ends hG hbr (by rw [hw.1]; exact hevs) hwb hwz hw.2 hgrid hmade hqs
            (by rw [hw.1]; exact hj) ?_ (by rw [hw.1]; exact hs)
          rw [hw.1]
          refine le_trans ?_ hk
          unfold pruneBound
          exact Nat.mul_le_mul_left _ (by omega)
        · obtain ⟨t, c', tk⟩ := t
          dsimp only
          cases t with
          | sat b => intro h; cases h
          | unsat E =>
            refine run_bind_oof (lift_oof _) fun s2 hl => ?_
            have hl := lift_ok hl
            have hlits : LitsOk fs (writeBools box m.bool).vars := by
              refine ⟨fun f hf => wfF_rc f (hatom f hf).1.wf, fun f hf v hv' => ?_⟩
              rw [hw.1]
              exact (AtomF.fv f (hatom f hf).1 v hv').2
            obtain ⟨hE, -⟩ := theoryCheck_unsat he hd hw.2 hlits
              (by rw [hw.1]; exact hc.ok hH hAv) ht
            have hv1 : ∀ v ∈ vs, v.id < s1.abs.next := by rw [ha1]; exact hv
            have hT1 : ∀ p ∈ s1.abs.table, Atm (A vs) p.2 := by rw [ha1]; exact hT
            have hnoAll : ∀ f ∈ fs, f.isAll = true → A vs := by
              intro f hf hall
              obtain ⟨v, b, a, _, g1, rfl⟩ := t1 f hf
              exact (hT1 _ g1).all b hall
            have hc' := theoryCheck_cacheInv hw hn hH (fun f hf => (hatom f hf).1) (A := A) hnoAll hc ht
            obtain ⟨k1, k2, k3, -⟩ := addLearned_str hst1 hv1 (fun f hf => (hatom f (hE f hf)).1) hl
            have hl' := hl
            simp only [addLearned] at hl'
            obtain ⟨⟨ls, s3⟩, q1, q2⟩ := bindO_ok hl'
            obtain ⟨q3, q4⟩ := learned_lits hst1.tab hT1 (th := m.theory)
              (fun f hf => by
                obtain ⟨v, b, a, g0, g1, g2⟩ := t1 f (hE f hf)
                exact ⟨v, b, a, g0, g1, g2⟩) q1
            simp only [Outcome.ok.injEq] at q2
            rw [q3] at q2
            subst q2
            have hmax : s1.maxVar = M := by rw [e]; exact hM
            have hcl : s1.clauses.vec = s.clauses.vec := by rw [e]
            refine checkLoop_ends hd hp hn hH hAv he hG hbr h0 h1 hj hk hs n _ _ _ _ hw k1 hv1 hc'
              ?_ hT1 hmax hwb hwz (by rw [show (SatState.abs _) = s.abs from ha1]; exact hlg)
              (by rw [show (SatState.abs _) = s.abs from ha1]; exact hev)
              (by rw [show (SatState.abs _) = s.abs from ha1, writeBools_bot]; exact hq) ?_
            · refine ⟨hsd1.inv, fun c hc l hl2 => ?_⟩
              rcases List.mem_append.mp hc with hc | hc
              · exact hsd1.lsym c hc l hl2
              · rw [List.mem_singleton] at hc
                subst hc
                obtain ⟨v, b, k, _, g2, rfl⟩ := q4 l hl2
                obtain ⟨w, g3, _⟩ := hst1.ss _ _ g2
                refine ⟨w, ?_⟩
                rw [← g3]
                congr 1
                unfold litOf; split <;> simp
            · show (livePs M (s1.clauses.vec ++ [ls])).card < n
              rw [hcl]
              have := livePs_lt (M := M) (cs := s.clauses.vec) (ls := ls) (d := d)
                (hp.sat _ _ _ _ _ hps) (fun c hc l hl => by rw [← hM]; exact (hst.lits c hc l hl).2)
                (fun l hl => by
                  obtain ⟨v, b, k, g1, g2, rfl⟩ := q4 l hl
                  rw [hm] at g1
                  obtain ⟨i, _, g3, g4, g5, _⟩ := readModel_theory g1
                  have g6 := hsd.inv i v g3
                  rw [show s1.toSat = s.toSat by rw [e], g6] at g2
                  cases g2
                  exact ⟨b, _, rfl, g4, g5⟩)
              omega

theorem checkSat_ends {D I} {S : Expr → Expr → Prop} {cfg : CCfg} (hd : DblOk cfg.th.dbl)
    (hp : PicosatOk cfg.ps) (he : EnvOk D I cfg.env) (hfp : DiamOk cfg.env.fp)
    (hδ : 0 ≤ cfg.env.delta) (hG : GridOps G cfg.env.ib) (hbr : BranchGrid G cfg.env.brancher)
    (h0 : EQ.fin 0 ∈ G) (h1 : EQ.fin 1 ∈ G) {k : Books} {c : Ctx}
    (hj : ParTurns G cfg.env cfg.th c.box.vars.length)
    (hk : PosesPlain cfg S k c) (hb : Bounded G c.box) (hz : IntsSized c.box)
    (hlg : ∀ p ∈ c.sat.abs.table, ∀ b : Bool, LitGrid G cfg.th.dbl (if b then p.2 else notF p.2))
    (hpr : pruneBound G c.box.vars.length (c.sat.maxVar + 2) ≤ cfg.env.fuel)
    (hs : searchBound G c.box.vars.length ≤ cfg.th.fuel)
    (hr : 3 ^ (c.sat.maxVar + 1) < cfg.rounds) : checkSat cfg c ≠ .oof := by
  obtain ⟨H, hKI, hKD⟩ := kd_poses hd hp he hfp hδ hk
  obtain ⟨P, Ps, hk1, _, hl, -⟩ := hKI.cons
  obtain ⟨hD, -⟩ := hKD.cons hk1
  unfold checkSat
  refine run_bind_oof ?_ fun r _ => ?_
  · unfold checkCore
    split
    · intro h; cases h
    · split
      · intro h; cases h
      · split
        · intro h; cases h
        · exact checkLoop_ends hd hp hl.wf.2 hl.pos (fun _ h => h.2) he hG hbr h0 h1 hj hpr hs
            _ _ _ _ _ ⟨rfl, hl.wf⟩ hl.str (fun v hv => (hl.kinds v hv).1) hKI.cache hD.satd (fun p hp => (hKD.tab p hp).atm) rfl
            hb hz hlg (fun n f hf ha => by
              obtain ⟨p, hp, rfl⟩ := List.mem_map.mp hf
              obtain ⟨op, x, y, e, _⟩ := hKD.tab p hp
              rw [e] at ha; cases ha) (fun ⟨p, hp, ha⟩ => by
              obtain ⟨op, x, y, e, _⟩ := hKD.tab p hp
              rw [e] at ha; cases ha) (lt_of_le_of_lt (livePs_card _ _) hr)
  · dsimp only
    split
    · exact run_bind_oof (lift_oof _) fun t _ => run_bind_oof (lift_oof _) fun m _ h => by cases h
    · intro h; cases h

end Verif.Proof
