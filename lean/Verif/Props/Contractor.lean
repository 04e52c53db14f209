import Verif.Proof.Generate
import Verif.Spec.ContractorDemo

/-!
# Pruning: C21, C22, C50
-/

namespace Verif.Props
open Verif Verif.Model Verif.Spec

/-! ## C21: pruning never loses a solution and never enlarges a box -/

/-- C21.  Whatever contractor `c` the `make_contractor_*` functions assemble for boxes with the
variables of `s.box` (any nesting of sequences, joins, fixpoints and work lists over integer
rounding and the atomic contractors): when its `Prune` returns, the new box has the same
variables, is a sub-box of the old one, and still contains every correctly typed point of the
old one at which the constraints of `c` are defined and hold. -/
theorem C21_prune_sound (D : Dom) (I : Interp) (ib : Ibex) (hib : IbexSound D I ib)
    (hfa : ForallSound D I ib) (n : Nat) (c : Ctc) (s s' : CStatus) (hwf : BoxWf s.box)
    (hb : BuiltFor s.box.vars c) (h : prune ib n c s = .ok s') :
    s'.box.vars = s.box.vars ∧ BoxWf s'.box ∧ SubBox s'.box s.box ∧
    ∀ ρ : Valuation, InBox ρ s.box → TypedOn ρ s.box.vars →
      (∀ f ∈ formulasC c, RcOkF f) → (∀ f ∈ formulasC c, DefF D I ρ f) → SatC I ρ c →
      InBox ρ s'.box := by
  obtain ⟨h1, h2⟩ := Proof.prune_sub hib hfa c hb s s' h ⟨rfl, hwf⟩
  exact ⟨h1.1, h1.2, h2, fun ρ hin hty hrc hd hsat =>
    (Proof.prune_keep hib hfa hty c hb hrc hd hsat s s' h ⟨rfl, hwf⟩).2 hin⟩

/-- A sub-box has no new points. -/
theorem C21_sub_points (a b : Box) (h : SubBox a b) (hv : a.vars = b.vars) (ρ : Valuation)
    (hρ : InBox ρ a) : InBox ρ b :=
  ⟨(h hρ.1).1, fun i v hi => (h hρ.1).2 i _ (hρ.2 i v (hv ▸ hi))⟩

/-- The two variables of the concrete cases. -/
def demoX : Variable := ⟨1, .continuous⟩
def demoN : Variable := ⟨2, .integer⟩
/-- `x ≤ 3`. -/
def demoXle : Fml := .rel .leq (.var demoX) (.const 3)
/-- `n ≤ 5/2`. -/
def demoNle : Fml := .rel .leq (.var demoN) (.const (5 / 2))
def demoBox : Box := ⟨[demoX, demoN], [⟨.fin 0, .fin 10⟩, ⟨.fin 0, .fin 10⟩], false⟩

/-- The work list of `x ≤ 3`, `n ≤ 5/2` and integer rounding, as built by the factories. -/
def demoCtc : Outcome Ctc := do
  let a ← mkFwdbwd demoXle demoBox
  let b ← mkFwdbwd demoNle demoBox
  .ok (mkWorklist [a, b, mkInteger demoBox])

/-- Concrete case: the assembled contractor reduces `[0,10] × [0,10]` to `[0,3] × [0,2]`. -/
example : (do let c ← Run.lift demoCtc; let s ← prune demoIbex 10 c ⟨demoBox, none, [], [], [], 0⟩
              Run.ok s.box) =
    .ok ⟨[demoX, demoN], [⟨.fin 0, .fin 3⟩, ⟨.fin 0, .fin 2⟩], false⟩ := by decide +kernel
example : ∃ c, demoCtc = .ok c ∧ BuiltFor demoBox.vars c := by
  refine ⟨_, rfl, ⟨rfl, rfl⟩, ⟨rfl, rfl⟩, ?_, trivial⟩
  intro i hi
  have : i = 1 := by revert hi; simp [demoBox, Box.size, demoX, demoN, List.range, List.range.loop]
  subst this
  exact ⟨demoN, rfl, Or.inl rfl⟩
example (D : Dom) (I : Interp) : IbexSound D I demoIbex ∧ ForallSound D I demoIbex ∧
    BoxWf demoBox := ⟨demoIbex_sound D I, demoIbex_forall D I, rfl, by decide⟩

/-! ## C22: constraint-directed pruning of a whole formula is sound -/

/-- C22.  If a contractor is generated for the formula `f` and a box, pruning with it any box
with the same variables returns a sub-box that still contains every typed point at which `f` is
defined and holds. -/
theorem C22_generated_prune_sound (D : Dom) (I : Interp) (ib : Ibex) (hib : IbexSound D I ib)
    (hfa : ForallSound D I ib) (n : Nat) (usePolytope : Bool) (f : Fml) (b : Box) (c : Ctc)
    (hc : generate usePolytope f b = .ok c) (s s' : CStatus) (hwf : BoxWf s.box)
    (hv : s.box.vars = b.vars) (h : prune ib n c s = .ok s') :
    s'.box.vars = s.box.vars ∧ SubBox s'.box s.box ∧
    ∀ ρ : Valuation, InBox ρ s.box → TypedOn ρ s.box.vars → RcOkF f → DefF D I ρ f →
      holds I ρ f → InBox ρ s'.box := by
  obtain ⟨g1, g2, g3⟩ := Proof.genVisit_ok _ hc
  obtain ⟨h1, _, h3, h4⟩ := C21_prune_sound D I ib hib hfa n c s s' hwf (hv ▸ g1) h
  refine ⟨h1, h3, fun ρ hin hty hrc hd hf => ?_⟩
  refine h4 ρ hin hty (g3 _ Proof.hered_rc (Proof.hered_rc.nnfVisit true true hrc))
    (g3 _ (Proof.hered_def D I ρ) ((Proof.hered_def D I ρ).nnfVisit true true hd)) (g2 I ρ ?_)
  exact (Proof.nnfVisit_holds I ρ true true f).mpr (by simpa using hf)

/-- Concrete case: `¬ (x > 3 ∧ n > 5/2) ∧ n ≤ 5/2`, with a negated conjunction (a join). -/
def demoGen : Fml := .conj [.neg (.conj [.rel .gt (.var demoX) (.const 3),
  .rel .gt (.var demoN) (.const (5 / 2))]), demoNle]

example : (do let c ← Run.lift (generate false demoGen demoBox)
              let s ← prune demoIbex 10 c ⟨demoBox, none, [], [], [], 0⟩
              Run.ok s.box) =
    .ok ⟨[demoX, demoN], [⟨.fin 0, .fin 10⟩, ⟨.fin 0, .fin (5 / 2)⟩], false⟩ := by
  decide +kernel

/-! ## C50: flattening preserves the result -/

/-- C50, sequences: the sequence the factory builds from the flattened list prunes a non-empty
box exactly as running the given contractors one after the other does (same status, or same
abnormal outcome); nothing left after flattening is the assertion violation of the
constructor, and then the given contractors do not change the status. -/
theorem C50_flatten_seq (ib : Ibex) (n : Nat) (cs : List Ctc) (s : CStatus)
    (hs : s.box.empty = false) :
    (∀ c, mkSeq cs = .ok c → prune ib n c s = prune ib n (.seq cs) s) ∧
    ((¬ ∃ c, mkSeq cs = .ok c) → mkSeq cs = .ub ∧ prune ib n (.seq cs) s = .ok s) := by
  constructor
  · intro c hc
    rw [Proof.mkSeq_ok hc]
    simp only [prune]
    exact Proof.flatten_seqRun cs s hs
  · intro hn
    have hf : flatten cs = [] := by
      by_contra hne
      exact hn ⟨.seq (flatten cs), by simp [mkSeq, hne]⟩
    exact ⟨by simp [mkSeq, hf], by simp only [prune]; exact Proof.flatten_nil_prune hf s hs⟩

/-- C50, fixpoints: the same for the fixpoint contractor.  When nothing is left the factory
returns the identity; that agrees because the termination condition stops on an unchanged
vector. -/
theorem C50_flatten_fixpoint (ib : Ibex) (n : Nat) (cs : List Ctc) (s : CStatus)
    (hterm : ∀ v, ib.term v v = true) (hs : s.box.empty = false) (hn : 0 < n) :
    prune ib n (mkFixpoint cs) s = prune ib n (.fixpoint cs) s := by
  unfold mkFixpoint
  split
  · rename_i hf
    rw [List.isEmpty_iff] at hf
    obtain ⟨n, rfl⟩ := Nat.exists_eq_succ_of_ne_zero hn.ne'
    simp [prune, fixLoop, Proof.flatten_nil_prune hf s hs, hs, hterm]
  · simp only [prune]
    exact Proof.flatten_fixLoop n s hs

/-- C50 on a box that already is empty: the statuses may differ (the example below) but both
boxes are empty. -/
theorem C50_flatten_empty (D : Dom) (I : Interp) (ib : Ibex) (hib : IbexSound D I ib)
    (hfa : ForallSound D I ib) (n : Nat) (cs : List Ctc) (c : Ctc)
    (hc : mkSeq cs = .ok c ∨ mkFixpoint cs = c ∨ mkWorklist cs = c ∨ c = .seq cs ∨
      c = .fixpoint cs) (s s' : CStatus)
    (hwf : BoxWf s.box) (hb : BuiltForAll s.box.vars cs) (hs : s.box.empty = true)
    (h : prune ib n c s = .ok s') : s'.box.empty = true := by
  have hc' : BuiltFor s.box.vars c := by
    rcases hc with hc | hc | hc | rfl | rfl
    · rw [Proof.mkSeq_ok hc]; exact Proof.flatten_builtFor hb
    · subst hc; unfold mkFixpoint; split
      · trivial
      · exact Proof.flatten_builtFor hb
    · subst hc; unfold mkWorklist; split
      · trivial
      · exact Proof.flatten_builtFor hb
    · exact hb
    · exact hb
  obtain ⟨-, -, h3, -⟩ := C21_prune_sound D I ib hib hfa n c s s' hwf hc' h
  by_contra hne
  have := (h3 (by simpa [Box.empty] using hne)).1
  simp [Box.empty] at hs
  rw [hs] at this; cases this

/-- Concrete case of `C50_flatten_seq`: an identity and a nested sequence disappear. -/
example : mkSeq [.id, .seq [.integer [0], .integer [1]], .integer [2]] =
    .ok (.seq [.integer [0], .integer [1], .integer [2]]) := rfl

/-- `x - 3 ≤ 0`. -/
def demoCtr : Ctr := ⟨.leq, .add (.var demoX) (.mul (.const (-1)) (.const 3))⟩

/-- On an empty box the unflattened sequence stops at the identity and the flattened one calls
the next contractor, which records its constraint. -/
example : ∃ (c : Ctc) (s : CStatus), s.box.empty = true ∧
    (do let r ← prune demoIbex 1 (.seq [.id, .fwdbwd [demoX] demoXle demoCtr]) s
        Run.ok r.used.isEmpty) = .ok true ∧
    mkSeq [.id, .fwdbwd [demoX] demoXle demoCtr] = .ok c ∧
    (do let r ← prune demoIbex 1 c s; Run.ok r.used.isEmpty) = .ok false :=
  ⟨.seq [.fwdbwd [demoX] demoXle demoCtr], ⟨⟨[demoX], [⟨.fin 4, .fin 5⟩], true⟩, none, [], [], [], 0⟩,
    rfl, by decide +kernel, rfl, by decide +kernel⟩

end Verif.Props
