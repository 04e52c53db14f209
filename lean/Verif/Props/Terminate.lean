import Verif.Props.DeltaSat
import Verif.Proof.TerminateCheck
import Verif.Proof.TerminateDemo

/-!
# C67: a check ends

Loops of the code are modelled with a number of rounds, and running out of them is an outcome of
its own (`Run.oof`).  The theorems say that there is a number that is always enough, so that the
loops of the code end.
-/

namespace Verif.Props
open Verif Verif.Model Verif.Spec Verif.Proof

/-- The default brancher only splits between bounds, and the halves are smaller. -/
theorem C67_brancher (G : Finset EQ) (fp : Fp) (hc : ∀ a ∈ G, a.ceil ∈ G)
    (hf : ∀ a ∈ G, a.floor ∈ G) (hfp : FpGrid G fp) : BranchGrid G (Box.branchLargestFirst fp) :=
  branch_grid hc hf hfp

/-- The search for a solution ends, if the integer variables have intervals in the range of `int`
and work lists have no joins; forall contractors are over the variables of the box, which is then not
empty.  Missing: without these conditions it need not. -/
theorem C67_search_partial (G : Finset EQ) (env : Env) (c : Ctc) (fs : List Fml) (left : Bool)
    (s : CStatus) (n : Nat) (hG : GridOps G env.ib) (hbr : BranchGrid G env.brancher)
    (he : EvalEnds G env s.box.vars fs) (hb : Bounded G s.box)
    (hz : IntsSized s.box) (hl : s.box.bot = false → BoxWf s.box) (ho : OverVars s.box.vars c)
    (ho0 : s.box.bot = true → ∀ ws, OverVars ws c)
    (hc : WlOk (IntAt s.box.vars) c) (hk : pruneBound G s.box.vars.length (fan c) ≤ env.fuel)
    (hn : searchBound G s.box.vars.length ≤ n) : icpSeq env left c fs n s ≠ .oof :=
  icpSeq_ends hG hbr he hb hz hl ho ho0 hc hk hn

/-- The parallel search ends, whatever the order in which the workers move, if every one of them has
enough turns.  Missing: the conditions of `C67_search_partial`. -/
theorem C67_parallel_partial (G : Finset EQ) (env : Env) (c : Ctc) (fs : List Fml) (jobs : Nat)
    (left : Bool) (sched : List Nat) (s : CStatus) (hG : GridOps G env.ib)
    (hbr : BranchGrid G (Box.branchLargestFirst env.fp))
    (he : EvalEnds G env s.box.vars fs) (hb : Bounded G s.box)
    (hz : IntsSized s.box) (hl : s.box.bot = false → BoxWf s.box) (ho : OverVars s.box.vars c)
    (ho0 : s.box.bot = true → ∀ ws, OverVars ws c)
    (hc : WlOk (IntAt s.box.vars) c) (hk : pruneBound G s.box.vars.length (fan c) ≤ env.fuel)
    (hn : Turns jobs (parBound G s.box.vars.length jobs) sched) :
    icpPar env jobs left c fs sched s ≠ .oof :=
  icpPar_ends hG hbr he hb hz hl ho ho0 hc hk hn

/-- In an infinite schedule in which every worker has its turn again and again, there is a moment at
which all workers have returned.  Missing: the conditions of `C67_search_partial`. -/
theorem C67_fair_partial (G : Finset EQ) (env : Env) (c : Ctc) (fs : List Fml) (jobs : Nat)
    (left : Bool) (sched : Nat → Nat) (s : CStatus) (hG : GridOps G env.ib)
    (hbr : BranchGrid G (Box.branchLargestFirst env.fp))
    (he : EvalEnds G env s.box.vars fs) (hb : Bounded G s.box)
    (hz : IntsSized s.box) (hl : s.box.bot = false → BoxWf s.box) (ho : OverVars s.box.vars c)
    (ho0 : s.box.bot = true → ∀ ws, OverVars ws c)
    (hc : WlOk (IntAt s.box.vars) c) (hk : pruneBound G s.box.vars.length (fan c) ≤ env.fuel)
    (hs : ∀ i < jobs, ∀ n, ∃ m, n ≤ m ∧ sched m = i) :
    ∃ n, ∀ m, n ≤ m → icpPar env jobs left c fs ((List.range m).map sched) s ≠ .oof := by
  obtain ⟨n, hn⟩ := turns_fair hs (parBound G s.box.vars.length jobs)
  exact ⟨n, fun m hm => icpPar_ends hG hbr he hb hz hl ho ho0 hc hk (hn m hm)⟩

/-- The theory solver ends, if the integer variables have intervals in the range of `int`; if the
search is parallel, then if the workers have enough turns; if there are quantified literals, then if
there is no strict bound of an integer variable (which can leave an empty box to the contractors).
Missing: these conditions. -/
theorem C67_theory_partial (G : Finset EQ) (env : Env) (cfg : TCfg) (cache : Cache) (tick : Nat)
    (b : Box) (fs : List Fml) (hG : GridOps G env.ib) (hbr : BranchGrid G env.brancher)
    (he : EvalEnds G env b.vars fs) (hb : Bounded G b) (hz : IntsSized b)
    (hl : BoxWf b) (hf : ∀ f ∈ fs, LitGrid G cfg.dbl f) (hc : CacheMade b.vars cache)
    (hq : (∃ f ∈ fs, f.isAll = true) → b.bot = false ∧ ∀ f ∈ fs, ¬ IntStrict f)
    (hj : ParTurns G env cfg b.vars.length) (hk : pruneBound G b.vars.length (fs.length + 2) ≤ env.fuel)
    (hn : searchBound G b.vars.length ≤ cfg.fuel) :
    theoryCheck env cfg cache tick b fs ≠ .oof :=
  theoryCheck_ends hG hbr he hb hz hl hf hc hq hj hk hn

/-- `CheckSat` ends after every history of calls in which the assertions are without quantifiers,
if the integer variables have intervals in the range of `int`, and, when the search is parallel, the
workers have enough turns: every round excludes a valuation of the SAT variables.  Missing: these
conditions; problems with quantifiers (`C67_quantified_partial`) or objectives
(`C67_minimum_partial`). -/
theorem C67_check_partial (G : Finset EQ) (D : Dom) (I : Interp) (S : Expr → Expr → Prop) (cfg : CCfg)
    (hd : DblOk cfg.th.dbl) (hp : PicosatOk cfg.ps) (he : EnvOk D I cfg.env)
    (hfp : DiamOk cfg.env.fp) (hδ : 0 ≤ cfg.env.delta) (hG : GridOps G cfg.env.ib)
    (hbr : BranchGrid G cfg.env.brancher)
    (h0 : EQ.fin 0 ∈ G) (h1 : EQ.fin 1 ∈ G) (k : Books) (c : Ctx)
    (hj : ParTurns G cfg.env cfg.th c.box.vars.length)
    (hk : PosesPlain cfg S k c) (hb : Bounded G c.box) (hz : IntsSized c.box)
    (hlg : ∀ p ∈ c.sat.abs.table, ∀ b : Bool, LitGrid G cfg.th.dbl (if b then p.2 else notF p.2))
    (hpr : pruneBound G c.box.vars.length (c.sat.maxVar + 2) ≤ cfg.env.fuel)
    (hs : searchBound G c.box.vars.length ≤ cfg.th.fuel)
    (hr : 3 ^ (c.sat.maxVar + 1) < cfg.rounds) : checkSat cfg c ≠ .oof :=
  checkSat_ends hd hp he hfp hδ hG hbr h0 h1 hj hk hb hz hlg hpr hs hr

/-! ## Cases -/

def gridEnv : Env where
  ops := demoOps
  fp := gridFp
  ib := gridIbex
  delta := 1
  fuel := pruneBound gridG 2 20
  brancher := Box.branchLargestFirst gridFp
  evalAll := fun _ _ _ => .ok (.unknown, ⟨.fin 0, .fin 0⟩)

/-- An integer and a real variable from -4 to 4. -/
def gridBox : Box := ⟨[varX, varN], [⟨.fin (-4), .fin 4⟩, ⟨.fin (-4), .fin 4⟩], false⟩

theorem gridBox_bounded : Bounded gridG gridBox := by
  intro _ iv h
  simp only [gridBox, List.mem_cons, List.not_mem_nil, or_false, or_self] at h
  subst h
  decide +kernel

theorem gridBox_sized : IntsSized gridBox := by
  intro _ i hi
  have : i < 2 := by
    obtain ⟨v, h, _⟩ := hi
    exact (List.getElem?_eq_some_iff.mp h).1
  obtain rfl | rfl : i = 0 ∨ i = 1 := by omega
  · unfold IntSized; decide +kernel
  · unfold IntSized; decide +kernel

/-- `x * n ≥ 3`, and a work list with it and rounding. -/
def gridLit : Fml := .rel .geq (.mul (.var varX) (.var varN)) (.const 3)
def gridCtc : Ctc := .worklist [.integer [1], .fwdbwd gridBox.vars gridLit
  ⟨.geq, .add (.mul (.var varX) (.var varN)) (.mul (.const (-1)) (.const 3))⟩]

example : GridOps gridG gridEnv.ib ∧ BranchGrid gridG gridEnv.brancher ∧
    WlOk (IntAt gridBox.vars) gridCtc ∧
    pruneBound gridG gridBox.vars.length (fan gridCtc) ≤ gridEnv.fuel ∧
    ∀ left, icpSeq gridEnv left gridCtc [gridLit] (searchBound gridG 2) { box := gridBox } ≠ .oof := by
  have hw : WlOk (IntAt gridBox.vars) gridCtc := by
    simp only [gridCtc, WlOk, QuietAll, Quiet, List.mem_singleton, forall_eq, and_true]
    exact ⟨varN, rfl, .inl rfl⟩
  have hk : pruneBound gridG gridBox.vars.length (fan gridCtc) ≤ gridEnv.fuel := by
    refine Nat.mul_le_mul_left _ ?_
    decide
  exact ⟨gridIbex_ops, grid_brancher, hw, hk, fun left => C67_search_partial gridG gridEnv gridCtc _
    left _ _ gridIbex_ops grid_brancher (fun _ _ _ _ => by simp [gridEnv]) gridBox_bounded
    gridBox_sized (fun _ => ⟨rfl, by decide⟩)
    (by simp [gridCtc, OverVars, OverVarsAll]) (fun h => by cases h) hw hk le_rfl⟩

/-- Three workers, of whom the second moves twice as often. -/
example : ∃ n, ∀ m, n ≤ m → icpPar gridEnv 3 true gridCtc [gridLit]
    ((List.range m).map fun i => [0, 1, 2, 1].getD (i % 4) 0) { box := gridBox } ≠ .oof := by
  have hw : WlOk (IntAt gridBox.vars) gridCtc := by
    simp only [gridCtc, WlOk, QuietAll, Quiet, List.mem_singleton, forall_eq, and_true]
    exact ⟨varN, rfl, .inl rfl⟩
  have hk : pruneBound gridG gridBox.vars.length (fan gridCtc) ≤ gridEnv.fuel :=
    Nat.mul_le_mul_left _ (by decide)
  refine C67_fair_partial gridG gridEnv gridCtc _ 3 true _ _ gridIbex_ops grid_brancher
    (fun _ _ _ _ => by simp [gridEnv]) gridBox_bounded gridBox_sized (fun _ => ⟨rfl, by decide⟩)
    (by simp [gridCtc, OverVars, OverVarsAll]) (fun h => by cases h) hw hk
    fun i hi n => ⟨4 * n + i, by omega, ?_⟩
  have : (4 * n + i) % 4 = i := by omega
  rw [this]
  obtain rfl | rfl | rfl : i = 0 ∨ i = 1 ∨ i = 2 := by omega
  all_goals rfl

theorem gridLit_grid (b : Bool) : LitGrid gridG quarterDbl (if b then gridLit else notF gridLit) := by
  intro v op lo hi ex h
  cases b <;> simp [gridLit, notF, asBound, asNum, asRel] at h

example : theoryCheck gridEnv { dbl := quarterDbl, fuel := searchBound gridG 2 } [] 0 gridBox
    [gridLit] ≠ .oof :=
  C67_theory_partial gridG gridEnv _ _ _ _ _ gridIbex_ops grid_brancher
    (fun _ _ _ _ => by simp [gridEnv]) gridBox_bounded gridBox_sized ⟨rfl, by decide⟩
    (fun f hf => by rw [List.mem_singleton.mp hf]; exact gridLit_grid true)
    (fun p hp => by cases hp) (fun ⟨f, hf, h⟩ => by rw [List.mem_singleton.mp hf] at h; cases h) (fun h => absurd h (by decide)) (Nat.mul_le_mul_left _ (by decide)) le_rfl

/-- Two workers that move one after the other. -/
example : theoryCheck gridEnv
    { dbl := quarterDbl, fuel := searchBound gridG 2, jobs := 2,
      sched := (List.replicate (parBound gridG 2 2) [0, 1]).flatten } [] 0 gridBox [gridLit] ≠ .oof :=
  C67_theory_partial gridG gridEnv _ _ _ _ _ gridIbex_ops grid_brancher
    (fun _ _ _ _ => by simp [gridEnv]) gridBox_bounded gridBox_sized ⟨rfl, by decide⟩
    (fun f hf => by rw [List.mem_singleton.mp hf]; exact gridLit_grid true)
    (fun p hp => by cases hp) (fun ⟨f, hf, h⟩ => by rw [List.mem_singleton.mp hf] at h; cases h) (fun _ => ⟨grid_brancher, _, by simp [gridBox], fun b hb i hi => by
      rw [(List.mem_replicate.mp hb).2]
      have : i < 2 := hi
      simp only [List.mem_cons, List.not_mem_nil, or_false]
      omega, rfl⟩) (Nat.mul_le_mul_left _ (by decide)) le_rfl

/-- The configuration for the check. -/
def gridCfg : CCfg :=
  { env := gridEnv, th := { dbl := quarterDbl, fuel := searchBound gridG 2 }, ps := demoSat,
    rounds := 3 ^ 10 }

theorem gridCfg_ok (D : Dom) (I : Interp) : EnvOk D I gridCfg.env := by
  have hr : ∀ c b, (demoRefute c b).2 = b ∨ (demoRefute c b).2 = b.setEmpty := by
    intro c b
    unfold demoRefute
    split
    · split
      · exact .inr rfl
      · exact .inl rfl
    · exact .inl rfl
  have he : ∀ b : Box, b.setEmpty.bot = true := fun _ => rfl
  have hf := demoIbex_forall D I
  have hfl := demoIbex_forallLocal D I
  refine ⟨demoOps_ok D I, ⟨fun c b => ?_, fun c b _ => ?_, ?_, fun _ _ => ⟨rfl, rfl⟩,
    fun _ b _ h => ⟨h, fun _ _ x => x⟩, fun _ _ _ _ _ ρ h _ _ => h⟩,
    ⟨?_, ?_, ?_, fun _ _ _ h _ => h, fun _ _ _ _ _ _ _ _ _ h _ => h⟩, ⟨hf.shape, hf.sub, hf.sound⟩,
    ⟨hfl.local', hfl.nonempty, hfl.sound⟩, C23_default_brancher _ gridFp_cut, gridFp_cut, ?_⟩
  · show (demoRefute c b).2.vars = _ ∧ (demoRefute c b).2.vals.length = _
    rcases hr c b with h | h <;> rw [h] <;> exact ⟨rfl, rfl⟩
  · show SubBox (demoRefute c b).2 b
    rcases hr c b with h | h <;> rw [h]
    · exact fun h => ⟨h, fun _ _ x => x⟩
    · intro h; simp [Box.setEmpty] at h
  · intro c b _ hv hrc ρ hρ hd hs
    show InBox ρ (demoRefute c b).2
    unfold demoRefute
    split
    · rename_i iv hiv
      have := evalI_encl (demoOps_ok D I) hρ c.e iv hd hrc hv hiv
      split
      · rename_i hu
        exact absurd hs (verdict_unsat this hu)
      · exact hρ
    · exact hρ
  · intro c b _ h
    change (demoRefute c b).1 = true at h
    show (demoRefute c b).2 = b
    revert h
    unfold demoRefute
    split
    · split
      · intro h; cases h
      · intro _; rfl
    · intro _; rfl
  · intro c b _ h i v _ _
    change (demoRefute c b).2.bot = false at h
    show (demoRefute c b).2.get i = b.get i
    rcases hr c b with e | e <;> rw [e] at h ⊢
    rw [he] at h; cases h
  · intro c b _ hn _
    show NoneEmpty (demoRefute c b).2
    rcases hr c b with e | e <;> rw [e] <;> exact hn
  · intro n f b r h
    simp only [gridCfg, gridEnv, Run.ok.injEq] at h; subst h; simp

/-- `x ∈ [-4, 4]` and a Boolean variable; `b ∨ x + x ≥ 5` is asserted. -/
def gridPre : Ctx := after gridCfg (after gridCfg (after gridCfg (after gridCfg (Ctx.init 10)
  (.declare varX true)) (.declare varB true)) (.setInterval varX (.fin (-4)) (.fin 4)))
  (.assert demoOr)


/-- The conditions of `C67_check_partial` are met after these calls. -/
example (D : Dom) (I : Interp) : ∃ k, PosesPlain gridCfg demoS k gridPre ∧ EnvOk D I gridCfg.env ∧
    Bounded gridG gridPre.box ∧ IntsSized gridPre.box ∧ gridPre.sat.abs.table ≠ [] ∧
    checkSat gridCfg gridPre ≠ .oof := by
  have h0 : PosesPlain gridCfg demoS { made := [varX, varB] } (Ctx.init 10) :=
    .init _ _ (by decide)
  have h1 := posesPlain_after (.declare varX true) h0 ⟨by simp, .inr ⟨by simp, id⟩⟩ (.inl rfl)
    (by decide +kernel)
  have h2 := posesPlain_after (.declare varB true) h1 ⟨by simp [Books.step, Books.setTop],
    .inr ⟨by simp [Books.step, Books.setTop]; decide, id⟩⟩ (.inl rfl) (by decide +kernel)
  have h3 := posesPlain_after (.setInterval varX (.fin (-4)) (.fin 4)) h2
    ⟨⟨newItv varX.type, by decide +kernel⟩, .inl rfl⟩ ⟨by decide +kernel, rfl⟩ (by decide +kernel)
  have h4 := posesPlain_after (.assert demoOr) h3
    ⟨⟨⟨rfl, newItv varB.type, by decide +kernel⟩, ⟨⟨⟨by decide, ⟨.fin (-4), .fin 4⟩,
      by decide +kernel⟩, by decide, ⟨.fin (-4), .fin 4⟩, by decide +kernel⟩, trivial⟩, trivial⟩,
      ⟨by show varB.id < _; decide +kernel, ⟨⟨by show varX.id < _; decide +kernel,
        by show varX.id < _; decide +kernel⟩, trivial⟩, trivial⟩, fun h => absurd h id⟩
    demoOr_plain (by decide +kernel)
  have eb : gridPre.box = ⟨[varX, varB], [⟨.fin (-4), .fin 4⟩, ⟨.fin 0, .fin 1⟩], false⟩ := by
    decide +kernel
  have et : (gridPre.sat.abs.table.all fun p => (asBound p.2).isNone && (asBound (notF p.2)).isNone) =
      true := by decide +kernel
  have el : gridPre.sat.abs.table.length = 1 := by decide +kernel
  have em : gridPre.sat.maxVar = 2 := by decide +kernel
  have hb : Bounded gridG gridPre.box := by
    rw [eb]
    intro _ iv h
    simp only [List.mem_cons, List.not_mem_nil, or_false] at h
    rcases h with rfl | rfl <;> decide +kernel
  have hz : IntsSized gridPre.box := by
    rw [eb]
    rintro _ i ⟨v, h, ht⟩
    exfalso
    have : i < 2 := (List.getElem?_eq_some_iff.mp h).1
    obtain rfl | rfl : i = 0 ∨ i = 1 := by omega
    · cases h; rcases ht with h | h <;> cases h
    · cases h; rcases ht with h | h <;> cases h
  refine ⟨_, h4, gridCfg_ok D I, hb, hz, fun h => ?_, ?_⟩
  · rw [h] at el; cases el
  · refine C67_check_partial gridG D I demoS gridCfg quarterDbl_ok demoSat_ok (gridCfg_ok D I)
      exactFp_diamOk (by decide +kernel) gridIbex_ops grid_brancher
      (by decide +kernel) (by decide +kernel)
      _ _ (fun h => absurd h (by decide)) h4 hb hz ?_ ?_ ?_ ?_
    · intro p hp b
      have h := List.all_eq_true.mp et p hp
      simp only [Bool.and_eq_true, Option.isNone_iff_eq_none] at h
      intro v op lo hi ex hf
      cases b with
      | true => rw [if_pos rfl, h.1] at hf; cases hf
      | false => rw [if_neg (by simp), h.2] at hf; cases hf
    · rw [eb, em]; exact Nat.mul_le_mul_left _ (by decide)
    · rw [eb]; exact le_rfl
    · rw [em]; decide

/-! ## A check that does not end -/

/-- With `--worklist-fixpoint` a check need not end: a bound of an integer variable beyond the range
of `int` is never taken for an integer, so rounding reports a change every time, and the work list is
never empty.  It is enough that the first round changed something (here, `m ≥ 1/2` became `m ≥ 1`; the
fixpoint computation goes on after a change of at least 1%). -/
theorem C67_worklist_hangs (env : Env) (cfg : TCfg) (tick : Nat)
    (hib : env.ib.term hangBox.vals hangRes.vals = false) (hw : cfg.useWorklist = true)
    (hp : cfg.usePoly = false) (hj : cfg.jobs ≤ 1) :
    theoryCheck env cfg [] tick hangBox [hangLit] = .oof :=
  hang_theory env cfg hib hw hp hj tick

/-- Every other condition of `C67_theory_partial` can be met in this case. -/
example : demoIbex.term hangBox.vals hangRes.vals = false ∧ ¬ IntsSized hangBox ∧
    hangBox.vals.length = hangBox.vars.length ∧ (∀ G d, LitGrid G d hangLit) := by
  refine ⟨by decide +kernel, fun h => ?_, rfl, fun G d v op lo hi ex h => ?_⟩
  · have := (h rfl 0 ⟨hangN, rfl, .inl rfl⟩).2
    revert this
    decide +kernel
  · simp [hangLit, asBound, asRel] at h

end Verif.Props
