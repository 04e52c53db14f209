import Verif.Proof.StrengthenWeak
import Verif.Proof.ForallFind
import Verif.Proof.Unsat

/-! # The nested context of a forall evaluator is a context that poses a problem -/

namespace Verif.Proof
open Verif Verif.Model Verif.Spec

/-- The books of the nested context: the declared variables are those in `ds`, their intervals are
given by `F`, and `fs` is asserted. -/
structure EvK (made : List Variable) (ds : Variable → Prop) (F : Variable → Itv) (fs : List Fml)
    (k : Books) : Prop where
  made : ∀ v ∈ made, v ∈ k.made
  used : ∀ v ∈ k.used, k.top.Declared v
  dom : ∀ p ∈ k.top.dom, p.2 = F p.1
  decl : ∀ v, k.top.Declared v ↔ ds v
  asserted : k.top.asserted = fs

theorem top_setTop (k : Books) (P : Problem) : (k.setTop P).top = P := rfl

theorem declared_iff {P : Problem} {v} : P.Declared v ↔ v ∈ P.dom.map Prod.fst := by
  simp [Problem.Declared]

theorem declareAll_poses {cfg made} : ∀ (vs : List Variable) {ds : Variable → Prop} {k c},
    Poses cfg k c → EvK made ds (fun v => newItv v.type) [] k → (∀ v ∈ vs, v ∈ made) →
    ¬ k.built → ∃ k', Poses cfg k' (declareAll vs c) ∧ ¬ k'.built ∧
      (declareAll vs c).sat.abs.next = c.sat.abs.next ∧
      EvK made (fun v => ds v ∨ v ∈ vs) (fun v => newItv v.type) [] k'
  | [], ds, k, c, hp, hk, _, hb => ⟨k, hp, hb, rfl, by simpa using hk⟩
  | v :: vs, ds, k, c, hp, hk, hm, hb => by
    have hu : k.Uses c.sat.abs.next (.declare v true) := by
      refine ⟨hk.made v (hm v (.head _)), ?_⟩
      by_cases h : v ∈ k.used
      · exact .inl (hk.used v h)
      · exact .inr ⟨h, hb⟩
    have hp' : Poses cfg (k.step c.sat.abs.next (.declare v true)) (declare c v true) :=
      .step (a := []) hp hu rfl
    have htop : (k.step c.sat.abs.next (.declare v true)).top = { k.top with dom := if v ∈ k.top.dom.map Prod.fst then k.top.dom else (v, newItv v.type) :: k.top.dom } := rfl
    have hdec : ∀ w, (k.step c.sat.abs.next (.declare v true)).top.Declared w ↔
        k.top.Declared w ∨ w = v := by
      intro w
      rw [declared_iff, declared_iff, htop]
      by_cases h : v ∈ k.top.dom.map Prod.fst
      · simp only [h, if_true]
        exact ⟨.inl, fun h' => h'.elim id (fun e => e ▸ h)⟩
      · simp only [h, if_false, List.map_cons, List.mem_cons]
        exact or_comm
    have hk' : EvK made (fun w => ds w ∨ w = v) (fun v => newItv v.type) []
        (k.step c.sat.abs.next (.declare v true)) := by
      refine ⟨hk.made, fun w hw => ?_, fun p hp => ?_, fun w => ?_, ?_⟩
      · rw [hdec]
        rcases List.mem_cons.mp hw with h | h
        · exact .inr h
        · exact .inl (hk.used w h)
      · rw [htop] at hp
        simp only at hp
        split at hp
        · exact hk.dom p hp
        · rcases List.mem_cons.mp hp with rfl | hp
          · rfl
          · exact hk.dom p hp
      · rw [hdec, hk.decl]
      · rw [htop]; exact hk.asserted
    obtain ⟨k', h1, h3, h4, h2⟩ := declareAll_poses vs hp' hk' (fun w hw => hm w (.tail _ hw)) hb
    refine ⟨k', h1, h3, h4, h2.made, h2.used, h2.dom, fun w => ?_, h2.asserted⟩
    rw [h2.decl, List.mem_cons]
    tauto

theorem assertF_poses {cfg made ds F k c c' f} (hp : Poses cfg k c) (hk : EvK made ds F [] k)
    (hf : WfF ds f) (ho : Old c.sat.abs.next f) (hb : ¬ k.built) (h : assertF cfg c f = .ok c') :
    ∃ k', Poses cfg k' c' ∧ EvK made ds F [f] k' := by
  have hu : k.Uses c.sat.abs.next (.assert f) :=
    ⟨wfF_mono (fun v hv => (hk.decl v).mpr hv) f hf, ho, fun h => absurd h hb⟩
  refine ⟨k.step c.sat.abs.next (.assert f), .step (a := []) hp hu ?_, ?_⟩
  · simp only [stepCmd, h]; rfl
  · exact ⟨hk.made, hk.used, hk.dom, hk.decl, by
      show f :: k.top.asserted = [f]
      rw [hk.asserted]⟩

theorem setOuter_poses {cfg : CCfg} {D I made ds fs} (he : EnvOk D I cfg.env)
    (hd : DblOk cfg.th.dbl) (hps : PicosatOk cfg.ps) (b : Box) :
    ∀ (vs : List Variable) {F k c}, Poses cfg k c → EvK made ds F fs k → (∀ v ∈ vs, ds v) →
    (∀ v ∈ vs, ∀ x : ℝ, InItv x (b.getV v) → InItv x (F v)) →
    ∃ k', Poses cfg k' (setOuter b vs c) ∧
      EvK made ds (fun v => if v ∈ vs then b.getV v else F v) fs k'
  | [], F, k, c, hp, hk, _, _ => ⟨k, hp, by simpa using hk⟩
  | v :: vs, F, k, c, hp, hk, hm, hs => by
    have hdv := (hk.decl v).mpr (hm v (.head _))
    obtain ⟨H, hK⟩ := kinv_poses hd hps he hp
    obtain ⟨P, Ps, -, ht, hl, -⟩ := hK.cons
    have hv : v ∈ c.box.vars := (hl.dom v (ht ▸ hdv)).1
    have hu : k.Uses c.sat.abs.next (.setInterval v (b.getV v).lb (b.getV v).ub) := by
      refine ⟨hdv, .inr fun iv hiv x hx => ?_⟩
      have e : iv = F v := hk.dom _ hiv
      rw [e]
      exact hs v (.head _) x hx
    have hp' : Poses cfg (k.step c.sat.abs.next (.setInterval v (b.getV v).lb (b.getV v).ub))
        (setIntervalRaw c v (b.getV v).lb (b.getV v).ub) := by
      refine .step (a := []) hp hu ?_
      simp only [stepCmd, setInterval, hv, if_true]
      rfl
    have htop : (k.step c.sat.abs.next (.setInterval v (b.getV v).lb (b.getV v).ub)).top.dom = k.top.dom.map fun p => if p.1 = v then (v, b.getV v) else p := rfl
    have hdec : ∀ w, (k.step c.sat.abs.next (.setInterval v (b.getV v).lb (b.getV v).ub)).top.Declared w ↔ k.top.Declared w := by
      intro w
      rw [declared_iff, declared_iff, htop, List.map_map]
      have : (Prod.fst ∘ fun p : Variable × Itv => if p.1 = v then (v, b.getV v) else p) = Prod.fst := by
        funext p
        simp only [Function.comp]
        split
        · rename_i e; exact e.symm
        · rfl
      rw [this]
    have hk' : EvK made ds (fun w => if w = v then b.getV v else F w) fs
        (k.step c.sat.abs.next (.setInterval v (b.getV v).lb (b.getV v).ub)) := by
      refine ⟨hk.made, fun w hw => (hdec w).mpr (hk.used w hw), fun p hp => ?_,
        fun w => (hdec w).trans (hk.decl w), hk.asserted⟩
      rw [htop] at hp
      obtain ⟨q, hq, rfl⟩ := List.mem_map.mp hp
      split
      · simp
      · exact hk.dom q hq
    obtain ⟨k', h1, h2⟩ := setOuter_poses he hd hps b vs hp' hk' (fun w hw => hm w (.tail _ hw))
      (fun w hw x hx => by
        split
        · rename_i e; rw [← e]; exact hx
        · exact hs w (.tail _ hw) x hx)
    refine ⟨k', h1, h2.made, h2.used, fun p hp => ?_, h2.decl, h2.asserted⟩
    rw [h2.dom p hp]
    by_cases h1 : p.1 ∈ vs
    · simp [h1]
    · by_cases h3 : p.1 = v
      · simp [h3]
      · simp [h1, h3]

theorem check_poses {cfg made ds F fs k c o c'} (hp : Poses cfg k c) (hk : EvK made ds F fs k)
    (h : checkSat cfg c = .ok (o, c')) : ∃ k', Poses cfg k' c' ∧ EvK made ds F fs k' := by
  refine ⟨k.step c.sat.abs.next .check, .step (a := [o]) hp trivial ?_,
    hk.made, hk.used, hk.dom, hk.decl, hk.asserted⟩
  simp only [stepCmd, h]; rfl

theorem newVar_poses {cfg made ds F fs k c} (t : VType) (hp : Poses cfg k c)
    (hk : EvK made ds F fs k) : ∃ k', Poses cfg k' { c with sat := { c.sat with abs :=
      { c.sat.abs with next := c.sat.abs.next + 1 } } } ∧ EvK made ds F fs k' := by
  refine ⟨k.step c.sat.abs.next (.newVar t), .step (a := []) hp trivial rfl, ?_⟩
  exact ⟨fun v hv => .tail _ (hk.made v hv), hk.used, hk.dom, hk.decl, hk.asserted⟩

theorem weakF_notF {I : Interp} {δ : ℝ} {ρ : Valuation} {g : Fml} :
    weakF I δ ρ false (notF g) → weakF I δ ρ true g := by
  unfold notF
  split
  · rename_i h; intro; subst h; rfl
  split
  · rename_i h; intro hh; subst h; exact absurd hh (by simp [weakF])
  split
  · intro hh; simpa [weakF] using hh
  · intro hh; simpa [weakF] using hh

theorem basic_notF {P : ℚ → Prop} {g : Fml} (h : BasicF P g) : BasicF P (notF g) := by
  unfold notF
  split
  · trivial
  split
  · trivial
  split
  · exact h
  · exact h

/-- The context the evaluator is constructed with. -/
theorem evalContext_poses {cfg : CCfg} {next ε qs g c} (hn : ∀ v ∈ g.fv ++ qs, v.id < next)
    (ho : Old next g) (hw : WfF (· ∈ g.fv) g) (h : evalContext cfg next ε qs g = .ok c) :
    ∃ n k, deltaStrengthen cfg.rnd ε (notF g) = .ok n ∧ Poses cfg k c ∧
      EvK (g.fv ++ qs) (fun v => v ∈ (Fml.all qs g).fv ∨ v ∈ qs)
        (fun v => newItv v.type) [n] k := by
  unfold evalContext at h
  obtain ⟨n, h1, h2⟩ := bindO_ok h
  have hfv : ∀ v, v ∈ (Fml.all qs g).fv ↔ v ∈ g.fv ∧ v ∉ qs := by
    intro v; simp [Fml.fv]
  have hk0 : EvK (g.fv ++ qs) (fun _ => False) (fun v => newItv v.type) []
      { made := g.fv ++ qs } :=
    ⟨fun _ h => h, by simp, by simp [Books.top], by simp [Books.top, Problem.Declared], rfl⟩
  obtain ⟨k1, p1, b1, n1, e1⟩ := declareAll_poses (Fml.all qs g).fv (Poses.init (cfg := cfg) next _ hn) hk0
    (fun v hv => List.mem_append_left _ ((hfv v).mp hv).1) id
  obtain ⟨k2, p2, b2, n2, e2⟩ := declareAll_poses qs p1 e1
    (fun v hv => List.mem_append_right _ hv) b1
  have hwn : WfF (fun v => (False ∨ v ∈ (Fml.all qs g).fv) ∨ v ∈ qs) n := by
    refine wfF_mono (fun v hv => ?_) n (wf_deltaStrengthen (wf_notF hw) h1)
    by_cases h : v ∈ qs
    · exact .inr h
    · exact .inl (.inr ((hfv v).mpr ⟨hv, h⟩))
  obtain ⟨k3, p3, e3⟩ := assertF_poses p2 e2 hwn
    (by rw [n2, n1]; exact Old.deltaStrengthen (Old.notF ho) h1) b2 h2
  exact ⟨n, k3, h1, p3, e3.made, e3.used, e3.dom, fun v => (e3.decl v).trans (by simp), e3.asserted⟩

end Verif.Proof
