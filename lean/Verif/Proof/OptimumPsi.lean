import Verif.Proof.Optimum
import Verif.Proof.ForallFind
import Verif.Proof.SubstFv
import Verif.Props.Minimize
import Verif.Props.Unsat

/-! # Lemmas on Minimize at the level of a context: the asserted constraint -/

namespace Verif.Proof
open Verif Verif.Model Verif.Spec

/-! ### Substitution under the constructors -/

theorem sub_body {p p' : Expr → Expr → Prop} {s : Subst}
    (hp : ∀ a b, p a b → p' (subE s a) (subE s b)) : ∀ (n : Nat) (f : Fml), sizeOf f ≤ n →
    Body p f → Body p' (subF s f) := by
  intro n
  induction n with
  | zero => intro f hs; cases f <;> simp at hs
  | succ n ih =>
    intro f hs hf
    cases f with
    | ff => simp only [subF]; trivial
    | tt => simp only [subF]; trivial
    | bvar v => exact absurd hf id
    | rel op a b =>
      have := hp a b hf
      simp only [subF]
      split
      · rename_i e; rw [e.1, e.2] at this; exact this
      · exact .mkRel this
    | conj fs =>
      have hi : ∀ f ∈ fs, Body p' (subF s f) := fun f hm => by
        have := List.sizeOf_lt_of_mem hm
        simp only [Fml.conj.sizeOf_spec] at hs
        exact ih f (by omega) (forAtomsL_iff.mp hf f hm)
      exact sub_conj (R := Body p') trivial trivial (fun _ _ h h' => .andF h h') hi
        (fun he => forAtomsL_iff.mpr fun f hm => by have := hi f hm; rwa [he f hm] at this)
    | disj fs =>
      have hi : ∀ f ∈ fs, Body p' (subF s f) := fun f hm => by
        have := List.sizeOf_lt_of_mem hm
        simp only [Fml.disj.sizeOf_spec] at hs
        exact ih f (by omega) (forAtomsL_iff.mp hf f hm)
      exact sub_disj (R := Body p') trivial trivial (fun _ _ h h' => .orF h h') hi
        (fun he => forAtomsL_iff.mpr fun f hm => by have := hi f hm; rwa [he f hm] at this)
    | neg f =>
      simp only [Fml.neg.sizeOf_spec] at hs
      have := ih f (by omega) hf
      simp only [subF]
      split
      · rename_i e; rw [e] at this; exact this
      · exact ForAtoms.notF this
    | all vs f => exact absurd hf id

theorem subE_empty {s : Subst} (hs : s.ex = []) : ∀ e, IteFreeE e → subE s e = e
  | .const _, _ => by simp [subE]
  | .rconst _, _ => by simp [subE]
  | .var v, _ => by simp [subE, hs, lookupV]
  | .add a b, h => by simp [subE, subE_empty hs a h.1, subE_empty hs b h.2]
  | .mul a b, h => by simp [subE, subE_empty hs a h.1, subE_empty hs b h.2]
  | .app1 _ a, h => by simp [subE, subE_empty hs a h]
  | .app2 _ a b, h => by simp [subE, subE_empty hs a h.1, subE_empty hs b h.2]
  | .ite _ _ _, h => absurd h id

theorem substitute_eq {s : Subst} {e : Expr} (h : IteFreeE e) : e.substitute s = subE s e := by
  unfold Expr.substitute
  split
  · rename_i hs
    simp only [Bool.and_eq_true, List.isEmpty_iff] at hs
    exact (subE_empty hs.1 e h).symm
  · rfl

theorem substitute_body {p p' : Expr → Expr → Prop} {s : Subst}
    (hf : ∀ a b, p a b → IteFreeE a ∧ IteFreeE b)
    (hp : ∀ a b, p a b → p' (subE s a) (subE s b)) {f : Fml} (h : Body p f) :
    Body p' (f.substitute s) := by
  unfold Fml.substitute
  split
  · rename_i hs
    simp only [Bool.and_eq_true, List.isEmpty_iff] at hs
    refine ForAtoms.mono (fun op a b hab => ?_) (fun _ h => h) (fun _ _ h => h) f h
    have := hp a b hab
    rwa [subE_empty hs.1 a (hf a b hab).1, subE_empty hs.1 b (hf a b hab).2] at this
  · exact sub_body hp _ f le_rfl h

/-- Replacing the variables `xs` by the variables `Y`. -/
structure Renames (s : Subst) (xs : List Variable) (Y : Variable → Variable) : Prop where
  look : ∀ v, lookupV v s.ex = if v ∈ xs then some (.var (Y v)) else none
  type : ∀ v, (Y v).type = v.type

theorem ren_spec {s xs Y} (h : Renames s xs Y) {V V' : Variable → Prop} (hV : ∀ x ∈ xs, V' (Y x)) :
    ∀ e, IteFreeE e → WfE V e → (∀ v ∈ e.vars, v ∈ xs) →
    WfE V' (subE s e) ∧ IteFreeE (subE s e) ∧ ∀ w ∈ (subE s e).vars, ∃ v ∈ xs, w = Y v
  | .const _, _, _, _ => by simp [subE, WfE, IteFreeE, Expr.vars]
  | .rconst _, _, w, _ => ⟨w, trivial, by simp [subE, Expr.vars]⟩
  | .var v, _, w, hx => by
    have hv := hx v (by simp [Expr.vars])
    simp only [subE, h.look, if_pos hv, Option.getD_some]
    exact ⟨⟨by rw [h.type]; exact w.1, hV v hv⟩, trivial, by simpa [Expr.vars] using ⟨v, hv, rfl⟩⟩
  | .add a b, i, w, hx => by
    simp only [Expr.vars, List.mem_append] at hx
    obtain ⟨a1, a2, a3⟩ := ren_spec h hV a i.1 w.1 fun v hv => hx v (.inl hv)
    obtain ⟨b1, b2, b3⟩ := ren_spec h hV b i.2 w.2 fun v hv => hx v (.inr hv)
    refine ⟨⟨a1, b1⟩, ⟨a2, b2⟩, fun w hw => ?_⟩
    simp only [subE, Expr.vars, List.mem_append] at hw
    exact hw.elim (a3 w) (b3 w)
  | .mul a b, i, w, hx => by
    simp only [Expr.vars, List.mem_append] at hx
    obtain ⟨a1, a2, a3⟩ := ren_spec h hV a i.1 w.1 fun v hv => hx v (.inl hv)
    obtain ⟨b1, b2, b3⟩ := ren_spec h hV b i.2 w.2 fun v hv => hx v (.inr hv)
    refine ⟨⟨a1, b1⟩, ⟨a2, b2⟩, fun w hw => ?_⟩
    simp only [subE, Expr.vars, List.mem_append] at hw
    exact hw.elim (a3 w) (b3 w)
  | .app1 f a, i, w, hx => by
    obtain ⟨a1, a2, a3⟩ := ren_spec h hV a i w hx
    exact ⟨a1, a2, a3⟩
  | .app2 f a b, i, w, hx => by
    simp only [Expr.vars, List.mem_append] at hx
    obtain ⟨a1, a2, a3⟩ := ren_spec h hV a i.1 w.1 fun v hv => hx v (.inl hv)
    obtain ⟨b1, b2, b3⟩ := ren_spec h hV b i.2 w.2 fun v hv => hx v (.inr hv)
    refine ⟨⟨a1, b1⟩, ⟨a2, b2⟩, fun w hw => ?_⟩
    simp only [subE, Expr.vars, List.mem_append] at hw
    exact hw.elim (a3 w) (b3 w)
  | .ite _ _ _, i, _, _ => absurd i id

theorem ren_def {D : Dom} {I : Interp} {σ σ' : Valuation} {s xs Y} (h : Renames s xs Y) :
    ∀ e, IteFreeE e → (∀ v ∈ e.vars, v ∈ xs ∧ σ' v = σ (Y v)) →
    eval I σ (subE s e) = eval I σ' e ∧ (DefE D I σ' e → DefE D I σ (subE s e))
  | .const _, _, _ => by simp [subE, eval, DefE]
  | .rconst _, _, _ => by simp [subE, eval, DefE]
  | .var v, _, hx => by
    have hv := hx v (by simp [Expr.vars])
    simp only [subE, h.look, if_pos hv.1, Option.getD_some, eval, DefE, hv.2]
    exact ⟨trivial, fun h => h⟩
  | .add a b, i, hx => by
    simp only [Expr.vars, List.mem_append] at hx
    obtain ⟨a1, a2⟩ := ren_def (D := D) (I := I) h a i.1 fun v hv => hx v (.inl hv)
    obtain ⟨b1, b2⟩ := ren_def (D := D) (I := I) h b i.2 fun v hv => hx v (.inr hv)
    simp only [subE, eval, DefE, a1, b1]
    exact ⟨trivial, fun hd => ⟨a2 hd.1, b2 hd.2⟩⟩
  | .mul a b, i, hx => by
    simp only [Expr.vars, List.mem_append] at hx
    obtain ⟨a1, a2⟩ := ren_def (D := D) (I := I) h a i.1 fun v hv => hx v (.inl hv)
    obtain ⟨b1, b2⟩ := ren_def (D := D) (I := I) h b i.2 fun v hv => hx v (.inr hv)
    simp only [subE, eval, DefE, a1, b1]
    exact ⟨trivial, fun hd => ⟨a2 hd.1, b2 hd.2⟩⟩
  | .app1 f a, i, hx => by
    obtain ⟨a1, a2⟩ := ren_def (D := D) (I := I) h a i hx
    simp only [subE, eval, DefE, a1]
    exact ⟨trivial, fun hd => ⟨a2 hd.1, hd.2⟩⟩
  | .app2 f a b, i, hx => by
    simp only [Expr.vars, List.mem_append] at hx
    obtain ⟨a1, a2⟩ := ren_def (D := D) (I := I) h a i.1 fun v hv => hx v (.inl hv)
    obtain ⟨b1, b2⟩ := ren_def (D := D) (I := I) h b i.2 fun v hv => hx v (.inr hv)
    simp only [subE, eval, DefE, a1, b1]
    exact ⟨trivial, fun hd => ⟨a2 hd.1, b2 hd.2.1, hd.2.2⟩⟩
  | .ite _ _ _, i, _ => absurd i id

/-! ### The atoms of the constraint -/

section
variable {P : RelOp → Expr → Expr → Prop} {B : Variable → Prop} {Q : List Variable → Fml → Prop}

theorem negBounds_body {p : Expr → Expr → Prop} {y : Variable} {iv : Itv}
    (h : ∀ c, p (.const c) (.var y) ∧ p (.var y) (.const c)) : ∀ f ∈ negBounds y iv, Body p f := by
  intro f hf
  unfold negBounds at hf
  rcases List.mem_append.mp hf with hf | hf
  · split at hf
    · rw [List.mem_singleton] at hf; subst hf
      exact ForAtoms.notF (.mkRel (h _).1)
    · cases hf
  · split at hf
    · rw [List.mem_singleton] at hf; subst hf
      exact ForAtoms.notF (.mkRel (h _).2)
    · cases hf

theorem objectives_atoms {P' : RelOp → Expr → Expr → Prop} {B' : Variable → Prop}
    {Q' : List Variable → Fml → Prop} {s : Subst} (objs : List Expr) :
    ∀ (next : Nat) (zb q : Fml), ForAtoms P B Q zb → ForAtoms P' B' Q' q →
    (∀ i f, objs[i]? = some f → P .eq (.var ⟨next + i, .continuous⟩) f) →
    (∀ i f, objs[i]? = some f → P' .leq (.var ⟨next + i, .continuous⟩) (f.substitute s)) →
    ForAtoms P B Q (objectives s objs next zb q).1 ∧
      ForAtoms P' B' Q' (objectives s objs next zb q).2.1 := by
  induction objs with
  | nil => intro next zb q h1 h2 _ _; exact ⟨h1, h2⟩
  | cons f fs ih =>
    intro next zb q h1 h2 h3 h4
    rw [objectives]
    refine ih (next + 1) _ _ (.andF h1 (.mkRel (by simpa using h3 0 f rfl)))
      (.orF h2 (.mkRel (by simpa using h4 0 f rfl))) (fun i g hg => ?_) (fun i g hg => ?_)
    · rw [show next + 1 + i = next + (i + 1) by omega]; exact h3 (i + 1) g (by simpa using hg)
    · rw [show next + 1 + i = next + (i + 1) by omega]; exact h4 (i + 1) g (by simpa using hg)
end

/-- What the constraint of `Minimize` looks like. -/
structure PsiShape (next : Nat) (b : Box) (stack : List Fml) (objs : List Expr) (psi : Fml)
    (zs : List Variable) (next' : Nat) (xs : List Variable) (s : Subst) : Prop where
  nodup : xs.Nodup
  ovars : ∀ f ∈ objs, ∀ v ∈ f.vars, v ∈ xs
  vars : ∀ x ∈ xs, x.type ≠ .boolean ∧ x ∈ b.vars
  ren : Renames s xs (yOf next xs)
  znew : zs = (List.range objs.length).map fun i =>
      (⟨next + xs.length + i, .continuous⟩ : Variable)
  nnew : next' = next + xs.length + objs.length
  atoms : ∀ (P : RelOp → Expr → Expr → Prop) (B : Variable → Prop)
    (q : Expr → Expr → Prop) (Q : List Variable → Fml → Prop),
    (∀ f, Body q f → ForAtoms P B Q (forallF (xs.map (yOf next xs)) f)) →
    (∀ i f, objs[i]? = some f → P .eq (.var ⟨next + xs.length + i, .continuous⟩) f) →
    (∀ x ∈ xs, ∀ c, q (.const c) (.var (yOf next xs x)) ∧ q (.var (yOf next xs x)) (.const c)) →
    (∀ f ∈ stack, (∀ v ∈ f.fv, v ∈ xs) → Body q (f.substitute s)) →
    (∀ i f, objs[i]? = some f → q (.var ⟨next + xs.length + i, .continuous⟩) (f.substitute s)) →
    ForAtoms P B Q psi

theorem psi_shape {next : Nat} {b : Box} {stack : List Fml} {objs : List Expr}
    {psi : Fml} {zs : List Variable} {next' : Nat}
    (h : minimizePsi next b stack objs = .ok (psi, zs, next')) :
    ∃ xs s, PsiShape next b stack objs psi zs next' xs s := by
  unfold minimizePsi at h
  obtain ⟨r, hr, h⟩ := bindR_ok h
  obtain ⟨hi, hd⟩ := relatedLoop_ok (objs := objs) ⟨addVars_nodup List.nodup_nil, fun f hf v hv =>
    mem_addVars.mpr (.inr (List.mem_flatMap.mpr ⟨f, hf, hv⟩)), by simp⟩ hr
  split_ifs at h with hb hv
  simp only [List.any_eq_true, decide_eq_true_eq, not_exists, not_and, not_not] at hb hv
  simp only [Run.ok.injEq, Prod.mk.injEq] at h
  obtain ⟨rfl, rfl, rfl⟩ := h
  have hys : (freshFor next r.vars).map Prod.snd = r.vars.map (yOf next r.vars) := by
    rw [freshFor_yOf hi.nodup, List.map_map]
    rfl
  refine ⟨r.vars, { ex := (freshFor next r.vars).map fun p => (p.1, .var p.2) }, hi.nodup, hi.objs, fun x hx => ⟨hb x hx, hv x hx⟩,
    ⟨lookup_fresh hi.nodup, fun _ => rfl⟩,
    (objectives_holds (I := ⟨fun _ _ => 0, fun _ _ _ => 0⟩) (ρ := fun _ => 0) objs _ _ _).2.2, rfl,
    fun P B q Q h1 h2 h3 h4 h5 => ?_⟩
  rw [hys]
  have hneg : Body q (mkDisj (toSet (((freshFor next r.vars).flatMap fun p =>
      negBounds p.2 (b.getV p.1)) ++ r.cons.map fun f => notF (f.substitute
        { ex := (freshFor next r.vars).map fun p => (p.1, .var p.2) })))) := by
    refine .mkDisj fun g hg => ?_
    rcases List.mem_append.mp (mem_toSet.mp hg) with hg | hg
    · rw [freshFor_yOf hi.nodup, List.mem_flatMap] at hg
      obtain ⟨p, hp, hg⟩ := hg
      obtain ⟨x, hx, rfl⟩ := List.mem_map.mp hp
      exact negBounds_body (h3 x hx) g hg
    · obtain ⟨f, hf, rfl⟩ := List.mem_map.mp hg
      exact ForAtoms.notF (h4 f (hi.sub f hf).1 (hi.sub f hf).2)
  obtain ⟨o1, o2⟩ := objectives_atoms (P := P) (B := B) (Q := Q)
    (s := { ex := (freshFor next r.vars).map fun p => (p.1, .var p.2) }) objs
    (next + r.vars.length) .tt _ trivial hneg h2 h5
  exact .andF o1 (h1 _ o2)

/-! ### The constraint is well-formed -/

mutual
theorem body_old {n : Nat} {p : Expr → Expr → Prop} (hp : ∀ a b, p a b → OldE n a ∧ OldE n b) :
    ∀ f, Body p f → Old n f
  | .ff, _ => trivial
  | .tt, _ => trivial
  | .bvar _, h => absurd h id
  | .rel _ a b, h => hp a b h
  | .conj fs, h => body_olds hp fs h
  | .disj fs, h => body_olds hp fs h
  | .neg f, h => body_old hp f h
  | .all _ _, h => absurd h id
theorem body_olds {n : Nat} {p : Expr → Expr → Prop} (hp : ∀ a b, p a b → OldE n a ∧ OldE n b) :
    ∀ fs, ForAtomsL (fun _ a b => p a b) (fun _ => False) NoQ fs → OldList n fs
  | [], _ => trivial
  | f :: fs, h => ⟨body_old hp f h.1, body_olds hp fs h.2⟩
end

mutual
theorem atoms_old {n : Nat} : ∀ f, ForAtoms (fun _ a b => OldE n a ∧ OldE n b) (fun _ => False)
    (fun vs g => Old n (.all vs g)) f → Old n f
  | .ff, _ => trivial
  | .tt, _ => trivial
  | .bvar _, h => absurd h id
  | .rel _ _ _, h => h
  | .conj fs, h => atoms_olds fs h
  | .disj fs, h => atoms_olds fs h
  | .neg f, h => atoms_old f h
  | .all _ _, h => h
theorem atoms_olds {n : Nat} : ∀ fs, ForAtomsL (fun _ a b => OldE n a ∧ OldE n b) (fun _ => False)
    (fun vs g => Old n (.all vs g)) fs → OldList n fs
  | [], _ => trivial
  | f :: fs, h => ⟨atoms_old f h.1, atoms_olds fs h.2⟩
end

theorem oldE_free {n : Nat} {V : Variable → Prop} (hV : ∀ v, V v → v.id < n) : ∀ e, IteFreeE e →
    WfE V e → OldE n e
  | .const _, _, _ => trivial
  | .rconst _, _, _ => trivial
  | .var v, _, h => hV v h.2
  | .add a b, i, h => ⟨oldE_free hV a i.1 h.1, oldE_free hV b i.2 h.2⟩
  | .mul a b, i, h => ⟨oldE_free hV a i.1 h.1, oldE_free hV b i.2 h.2⟩
  | .app1 _ a, i, h => oldE_free hV a i h
  | .app2 _ a b, i, h => ⟨oldE_free hV a i.1 h.1, oldE_free hV b i.2 h.2⟩
  | .ite _ _ _, i, _ => absurd i id

theorem sortedE_free {V : Variable → Prop} : ∀ e, IteFreeE e → WfE V e → SortedE e
  | .const _, _, _ => trivial
  | .rconst _, _, _ => trivial
  | .var v, _, h => h.1
  | .add a b, i, h => ⟨sortedE_free a i.1 h.1, sortedE_free b i.2 h.2⟩
  | .mul a b, i, h => ⟨sortedE_free a i.1 h.1, sortedE_free b i.2 h.2⟩
  | .app1 _ a, i, h => sortedE_free (V := V) a i h
  | .app2 _ a b, i, h => ⟨sortedE_free a i.1 h.1, sortedE_free b i.2 h.2⟩
  | .ite _ _ _, i, _ => absurd i id

mutual
theorem flat_sorted {n : Nat} {V : Variable → Prop} (hV : ∀ v, V v → v.id < n) : ∀ f,
    ForAtoms (fun _ a b => (WfE V a ∧ WfE V b) ∧ IteFreeE a ∧ IteFreeE b)
      (fun v => v.type = .boolean ∧ V v) NoQ f → SortedF f ∧ Old n f
  | .ff, _ => ⟨trivial, trivial⟩
  | .tt, _ => ⟨trivial, trivial⟩
  | .bvar v, h => ⟨h.1, hV v h.2⟩
  | .rel _ a b, h => ⟨⟨sortedE_free a h.2.1 h.1.1, sortedE_free b h.2.2 h.1.2⟩,
      oldE_free hV a h.2.1 h.1.1, oldE_free hV b h.2.2 h.1.2⟩
  | .conj fs, h => flat_sorteds hV fs h
  | .disj fs, h => flat_sorteds hV fs h
  | .neg f, h => flat_sorted hV f h
  | .all _ _, h => absurd h id
theorem flat_sorteds {n : Nat} {V : Variable → Prop} (hV : ∀ v, V v → v.id < n) : ∀ fs,
    ForAtomsL (fun _ a b => (WfE V a ∧ WfE V b) ∧ IteFreeE a ∧ IteFreeE b)
      (fun v => v.type = .boolean ∧ V v) NoQ fs → SortedFs fs ∧ OldList n fs
  | [], _ => ⟨trivial, trivial⟩
  | f :: fs, h => ⟨⟨(flat_sorted hV f h.1).1, (flat_sorteds hV fs h.2).1⟩,
      (flat_sorted hV f h.1).2, (flat_sorteds hV fs h.2).2⟩
end

mutual
/-- A formula over numerical variables has no atoms that are variables. -/
theorem flat_body {p : Expr → Expr → Prop} {V : Variable → Prop} {xs : List Variable}
    (hx : ∀ x ∈ xs, x.type ≠ .boolean) : ∀ f, (∀ v ∈ f.fv, v ∈ xs) →
    ForAtoms (fun _ a b => p a b) (fun v => v.type = .boolean ∧ V v) NoQ f →
    Body (fun a b => p a b ∧ (∀ v ∈ a.vars, v ∈ xs) ∧ ∀ v ∈ b.vars, v ∈ xs) f
  | .ff, _, _ => trivial
  | .tt, _, _ => trivial
  | .bvar v, hv, h => absurd h.1 (hx v (hv v (by simp [Fml.fv])))
  | .rel _ a b, hv, h => ⟨h, fun v hm => hv v (by simp [Fml.fv, hm]),
      fun v hm => hv v (by simp [Fml.fv, hm])⟩
  | .conj fs, hv, h => flat_bodys hx fs hv h
  | .disj fs, hv, h => flat_bodys hx fs hv h
  | .neg f, hv, h => flat_body hx f hv h
  | .all _ _, _, h => absurd h id
theorem flat_bodys {p : Expr → Expr → Prop} {V : Variable → Prop} {xs : List Variable}
    (hx : ∀ x ∈ xs, x.type ≠ .boolean) : ∀ fs, (∀ v ∈ Fml.fvList fs, v ∈ xs) →
    ForAtomsL (fun _ a b => p a b) (fun v => v.type = .boolean ∧ V v) NoQ fs →
    ForAtomsL (fun _ a b => p a b ∧ (∀ v ∈ a.vars, v ∈ xs) ∧ ∀ v ∈ b.vars, v ∈ xs)
      (fun _ => False) NoQ fs
  | [], _, _ => trivial
  | f :: fs, hv, h => ⟨flat_body hx f (fun v hm => hv v (by simp [Fml.fvList, hm])) h.1,
      flat_bodys hx fs (fun v hm => hv v (by simp [Fml.fvList, hm])) h.2⟩
end

theorem yOf_id {next : Nat} {xs : List Variable} {x} (hx : x ∈ xs) :
    next ≤ (yOf next xs x).id ∧ (yOf next xs x).id < next + xs.length := by
  have := List.idxOf_lt_length_of_mem hx
  simp only [yOf]
  omega

section
variable {next : Nat} {b : Box} {stack : List Fml} {objs : List Expr} {psi : Fml}
  {zs : List Variable} {next' : Nat} {xs : List Variable} {s : Subst} {V : Variable → Prop}

theorem psi_wf (h : PsiShape next b stack objs psi zs next' xs s) (hV : ∀ v, V v → v.id < next)
    (hs : ∀ f ∈ stack, ForAtoms (fun _ a b => (WfE V a ∧ WfE V b) ∧ IteFreeE a ∧ IteFreeE b)
      (fun v => v.type = .boolean ∧ V v) NoQ f)
    (ho : ∀ f ∈ objs, IteFreeE f ∧ WfE V f) :
    WfF (fun v => V v ∨ v ∈ zs) psi ∧ Old next' psi := by
  have hz : ∀ i f, objs[i]? = some f → (⟨next + xs.length + i, .continuous⟩ : Variable) ∈ zs := by
    intro i f hf
    have : i < objs.length := by
      by_contra hc
      rw [List.getElem?_eq_none (by omega)] at hf
      cases hf
    rw [h.znew]
    exact List.mem_map.mpr ⟨i, List.mem_range.mpr this, rfl⟩
  have hV' : ∀ v, V v ∨ v ∈ zs → v.id < next' := by
    rintro v (hv | hv)
    · have := hV v hv; rw [h.nnew]; omega
    · rw [h.znew] at hv
      obtain ⟨i, hi, rfl⟩ := List.mem_map.mp hv
      rw [List.mem_range] at hi
      rw [h.nnew]; simp only; omega
  have hY : ∀ x ∈ xs, yOf next xs x ∈ xs.map (yOf next xs) := fun x hx => List.mem_map_of_mem hx
  have hq : ∀ a b, (((WfE V a ∧ WfE V b) ∧ IteFreeE a ∧ IteFreeE b) ∧ (∀ v ∈ a.vars, v ∈ xs) ∧
      ∀ v ∈ b.vars, v ∈ xs) →
      WfQ (fun v => V v ∨ v ∈ zs) (xs.map (yOf next xs)) (subE s a) (subE s b) := by
    rintro a b ⟨⟨⟨a1, b1⟩, a2, b2⟩, a3, b3⟩
    obtain ⟨x1, x2, -⟩ := ren_spec (V' := fun v => (V v ∨ v ∈ zs) ∨ v ∈ xs.map (yOf next xs))
      h.ren (fun x hx => .inr (hY x hx)) a a2 a1 a3
    obtain ⟨y1, y2, -⟩ := ren_spec (V' := fun v => (V v ∨ v ∈ zs) ∨ v ∈ xs.map (yOf next xs))
      h.ren (fun x hx => .inr (hY x hx)) b b2 b1 b3
    exact ⟨⟨x1, y1⟩, x2, y2⟩
  have hstk : ∀ f ∈ stack, (∀ v ∈ f.fv, v ∈ xs) →
      Body (WfQ (fun v => V v ∨ v ∈ zs) (xs.map (yOf next xs))) (f.substitute s) := fun f hf hv =>
    substitute_body (fun a b h => h.1.2) hq
      (flat_body (V := V) (fun x hx => (h.vars x hx).1) f hv (hs f hf))
  have hobj : ∀ i f, objs[i]? = some f → WfQ (fun v => V v ∨ v ∈ zs) (xs.map (yOf next xs))
      (.var ⟨next + xs.length + i, .continuous⟩) (f.substitute s) := by
    intro i f hf
    have hm := List.mem_of_getElem? hf
    obtain ⟨f1, f2⟩ := ho f hm
    obtain ⟨y1, y2, -⟩ := ren_spec (V' := fun v => (V v ∨ v ∈ zs) ∨ v ∈ xs.map (yOf next xs))
      h.ren (fun x hx => .inr (hY x hx)) f f1 f2 (h.ovars f hm)
    rw [substitute_eq f1]
    exact ⟨⟨⟨by simp, .inl (.inr (hz i f hf))⟩, y1⟩, trivial, y2⟩
  have hbnd : ∀ x ∈ xs, ∀ c, WfQ (fun v => V v ∨ v ∈ zs) (xs.map (yOf next xs))
      (.const c) (.var (yOf next xs x)) ∧ WfQ (fun v => V v ∨ v ∈ zs) (xs.map (yOf next xs))
      (.var (yOf next xs x)) (.const c) := by
    intro x hx c
    have hv : WfE (fun v => (V v ∨ v ∈ zs) ∨ v ∈ xs.map (yOf next xs)) (.var (yOf next xs x)) :=
      ⟨(h.vars x hx).1, .inr (hY x hx)⟩
    exact ⟨⟨⟨trivial, hv⟩, trivial, trivial⟩, ⟨hv, trivial⟩, trivial, trivial⟩
  have hall : ∀ v, (V v ∨ v ∈ zs) ∨ v ∈ xs.map (yOf next xs) → v.id < next' := by
    rintro v (hv | hv)
    · exact hV' v hv
    · obtain ⟨x, hx, rfl⟩ := List.mem_map.mp hv
      have := (yOf_id (next := next) hx).2
      rw [h.nnew]; omega
  constructor
  · refine (wfF_iff psi).mpr ?_
    refine ForAtoms.mono (fun op a b h => h.1) (fun _ h => absurd h id)
      (fun vs g hg => (matrix_wf g).mpr hg) psi (h.atoms
        (fun _ a b => (WfE (fun v => V v ∨ v ∈ zs) a ∧ WfE (fun v => V v ∨ v ∈ zs) b) ∧
          IteFreeE a ∧ IteFreeE b) (fun _ => False) _ (QB (WfQ (fun v => V v ∨ v ∈ zs)))
        (fun f hf => forallF_atoms wfQ_ok hf) (fun i f hf => ?_) hbnd hstk hobj)
    obtain ⟨f1, f2⟩ := ho f (List.mem_of_getElem? hf)
    exact ⟨⟨⟨by simp, .inr (hz i f hf)⟩, wfE_mono (fun v hv => .inl hv) f f2⟩, trivial, f1⟩
  · refine atoms_old psi (h.atoms _ _ _ _ (fun f hf => ?_) (fun i f hf => ?_) hbnd hstk hobj)
    · refine ⟨fun v hv => hall v (.inr (List.mem_filter.mp hv).1), body_old (fun a b hab => ?_) f hf⟩
      exact ⟨oldE_free hall a hab.2.1 hab.1.1, oldE_free hall b hab.2.2 hab.1.2⟩
    · obtain ⟨f1, f2⟩ := ho f (List.mem_of_getElem? hf)
      exact ⟨hV' _ (.inr (hz i f hf)), oldE_free (fun v hv => hV' v (.inl hv)) f f1 f2⟩

theorem psi_reg {D : Dom} {I : Interp} {d : Dbl} {τ : Valuation} {T : Valuation → Prop}
    (h : PsiShape next b stack objs psi zs next' xs s)
    (hV : ∀ v, V v → v.id < next)
    (hs : ∀ f ∈ stack, ForAtoms (fun _ a b => ((WfE V a ∧ WfE V b) ∧ IteFreeE a ∧ IteFreeE b) ∧
      ∀ σ, T σ → DefE D I σ a ∧ DefE D I σ b) (fun v => v.type = .boolean ∧ V v) NoQ f)
    (ho : ∀ f ∈ objs, (IteFreeE f ∧ WfE V f) ∧ (∀ σ, T σ → DefE D I σ f) ∧
      ∀ lo hi ex, asNum f = some (lo, hi, ex) → lo = ex ∧ hi = ex)
    (hT : ∀ σ σ' : Valuation, (∀ v, v ∉ xs.map (yOf next xs) → σ v = τ v) →
      (∀ v ∈ xs.map (yOf next xs), typeOk v.type (σ v)) →
      (∀ v, σ' v = if v ∈ xs then σ (yOf next xs v) else σ v) → T σ') (hTτ : T τ)
    (hτ : ∀ i f, objs[i]? = some f →
      τ ⟨next + xs.length + i, .continuous⟩ = eval I τ f) : RegF D I d τ psi := by
  set ys := xs.map (yOf next xs) with hys
  have hY : ∀ x ∈ xs, yOf next xs x ∈ ys := fun x hx => List.mem_map_of_mem hx
  have hdef : ∀ e, IteFreeE e → (∀ v ∈ e.vars, v ∈ xs) → (∀ σ, T σ → DefE D I σ e) →
      ∀ σ : Valuation, (∀ v, v ∉ ys → σ v = τ v) → (∀ v ∈ ys, typeOk v.type (σ v)) →
      DefE D I σ (subE s e) := by
    intro e he hv hd σ h1 h2
    classical
    refine (ren_def (σ' := fun v => if v ∈ xs then σ (yOf next xs v) else σ v) h.ren e he
      (fun v hm => ⟨hv v hm, by simp only [if_pos (hv v hm)]⟩)).2 (hd _ (hT σ _ h1 h2 fun v => rfl))
  have hq : ∀ a b, ((((WfE V a ∧ WfE V b) ∧ IteFreeE a ∧ IteFreeE b) ∧
      ∀ σ, T σ → DefE D I σ a ∧ DefE D I σ b) ∧ (∀ v ∈ a.vars, v ∈ xs) ∧
      ∀ v ∈ b.vars, v ∈ xs) → RegQ D I d τ ys (subE s a) (subE s b) := by
    rintro a b ⟨⟨⟨⟨a1, b1⟩, a2, b2⟩, hd⟩, a3, b3⟩
    obtain ⟨-, x2, x3⟩ := ren_spec (V' := fun _ => True) h.ren (fun _ _ => trivial) a a2 a1 a3
    obtain ⟨-, y2, y3⟩ := ren_spec (V' := fun _ => True) h.ren (fun _ _ => trivial) b b2 b1 b3
    refine ⟨⟨x2, y2⟩, fun σ h1 h2 => ⟨hdef a a2 a3 (fun σ hσ => (hd σ hσ).1) σ h1 h2,
      hdef b b2 b3 (fun σ hσ => (hd σ hσ).2) σ h1 h2⟩, fun hno op => ?_⟩
    have nop : ∀ e : Expr, IteFreeE e → (∀ w ∈ e.vars, ∃ v ∈ xs, w = yOf next xs v) →
        (∀ w ∈ e.vars, w ∉ ys) → ¬ isPlace e := by
      intro e h1 h2 h3 hp
      cases e with
      | var w =>
        obtain ⟨v, hv, rfl⟩ := h2 w (by simp [Expr.vars])
        exact h3 _ (by simp [Expr.vars]) (hY v hv)
      | ite _ _ _ => exact h1
      | _ => exact hp
    exact ⟨fun _ _ _ _ hp => absurd hp (nop _ x2 x3 fun w hw => hno w (List.mem_append_left _ hw)),
      fun _ _ _ _ hp => absurd hp (nop _ y2 y3 fun w hw => hno w (List.mem_append_right _ hw))⟩
  refine (regF_iff psi).mpr (ForAtoms.mono (fun _ _ _ h => h) (fun _ h => h)
    (fun vs g hg => (matrix_reg g).mpr hg) psi (h.atoms (RegR D I d τ) (fun _ => True)
      (RegQ D I d τ ys) (QB (RegQ D I d τ)) (fun f hf => forallF_atoms regQ_ok hf)
      (fun i f hf => ?_) (fun x hx c => ?_) (fun f hf hv => ?_) (fun i f hf => ?_)))
  · obtain ⟨⟨f1, f2⟩, f3, -⟩ := ho f (List.mem_of_getElem? hf)
    exact ⟨trivial, regE_of_def f f1 (f3 τ hTτ), relOff_eq⟩
  · refine ⟨⟨⟨trivial, trivial⟩, fun _ _ _ => by simp [DefE], fun hno => ?_⟩,
      ⟨⟨trivial, trivial⟩, fun _ _ _ => by simp [DefE], fun hno => ?_⟩⟩
    · exact absurd (hY x hx) (hno _ (by simp [Expr.vars]))
    · exact absurd (hY x hx) (hno _ (by simp [Expr.vars]))
  · exact substitute_body (fun a b h => h.1.1.2) hq
      (flat_body (V := V) (fun x hx => (h.vars x hx).1) f hv (hs f hf))
  · have hm := List.mem_of_getElem? hf
    obtain ⟨⟨f1, f2⟩, f3, f4⟩ := ho f hm
    obtain ⟨-, y2, y3⟩ := ren_spec (V' := fun _ => True) h.ren (fun _ _ => trivial) f f1 f2
      (h.ovars f hm)
    rw [substitute_eq f1]
    refine ⟨⟨trivial, y2⟩, fun σ h1 h2 => ⟨by simp [DefE], hdef f f1 (h.ovars f hm) f3 σ h1 h2⟩,
      fun hno op => ⟨fun lo hi ex hn _ => ?_, fun lo hi ex hn => by simp [asNum] at hn⟩⟩
    -- the objective is a literal
    have hf' : asNum f = some (lo, hi, ex) := by
      cases f with
      | const q => simpa [subE] using hn
      | rconst r => simpa [subE] using hn
      | var v =>
        simp only [subE, h.ren.look, if_pos (h.ovars _ hm v (by simp [Expr.vars])),
          Option.getD_some, asNum] at hn
        cases hn
      | ite _ _ _ => exact absurd f1 id
      | add a b => simp [subE, asNum] at hn
      | mul a b => simp [subE, asNum] at hn
      | app1 g a => simp [subE, asNum] at hn
      | app2 g a b => simp [subE, asNum] at hn
    obtain ⟨e1, e2⟩ := f4 lo hi ex hf'
    have hval : eval I τ f = (ex : ℝ) := by
      cases f <;> simp only [asNum, Option.some.injEq, Prod.mk.injEq, reduceCtorEq] at hf'
      · simp [eval, ← hf'.2.2]
      · simp [eval, ← hf'.2.2]
    have hτi := hτ i f hf
    rw [hval] at hτi
    subst e1; subst e2
    simp only [eval]
    exact ⟨fun _ hc => absurd hc.1 (by rw [hτi]; exact lt_irrefl _),
      fun _ hc => absurd hc.2 (by rw [hτi]; exact lt_irrefl _)⟩
end

end Verif.Proof
