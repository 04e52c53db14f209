import Verif.Proof.Smt2Inv

/-! # The translation of terms -/

namespace Verif.Proof.Smt2
open Verif Verif.Model Verif.Model.Smt2 Verif.Spec Verif.Spec.Smt2 Verif.Proof

variable {I : Interp} {ρ : Valuation} {B : Variable → Prop} {use : List Cmd → Nat}

/-! ## Loops that make variables -/

theorem glob_fresh {d2 d3 : Drv} {n ty} (hs : d3.scope = d2.scope.insert n ⟨d2.next, ty⟩)
    (hf : d3.funs = d2.funs) {v} (h : Glob d3 v) : v = ⟨d2.next, ty⟩ ∨ Glob d2 v := by
  rcases h with ⟨m, hm⟩ | h
  · rw [hs, insert_map] at hm
    simp only [ScopedMap.upd] at hm
    split_ifs at hm
    · left; simpa using hm.symm
    · exact .inr (.inl ⟨m, hm⟩)
  · rw [hf] at h; exact .inr (.inr h)

theorem registerAll_spec {d : Drv} : ∀ {bs : List SBind} {d1 d2 : Drv} {vs : List Variable}
    {new : List Cmd}, registerAll bs d1 = (vs, d2) → Opened B d d1 new →
    ∃ new', Opened B d d2 (new ++ new') ∧ (∀ c ∈ new', ∃ t, c = .newVar t) ∧
      vs.map Variable.type = bs.map (fun b => b.srt.toType) ∧ (∀ v ∈ vs, New d1 d2 v) ∧
      d1.next ≤ d2.next ∧ vs.Nodup ∧ (∀ v, Glob d2 v → v ∈ vs ∨ Glob d1 v) ∧
      (∀ I ρ E F, Match I d1 ρ E F → Match I d2 ρ (E.binds bs (vs.map ρ)) F) ∧
      ∀ use, d2.next = count use d1.log d1.next new'
  | [], d1, d2, vs, new, h, o => by
    simp only [registerAll, Prod.mk.injEq] at h
    obtain ⟨rfl, rfl⟩ := h
    exact ⟨[], by simpa using o, by simp, rfl, by simp, le_rfl, by simp, fun v hv => .inr hv,
      fun I ρ E F m => m, fun _ => rfl⟩
  | b :: bs, d1, d2, vs, new, h, o => by
    simp only [registerAll] at h
    have o' := o.fresh (d3 := (d1.register b.name b.srt).2) (n := b.name) (ty := b.srt.toType)
      (cs := [.newVar b.srt.toType]) rfl rfl (by simp [Drv.register]) rfl
      (by simp [Quiet]) (fun I ρ => ⟨0, by simp [CmdHolds]⟩)
    cases hr : registerAll bs (d1.register b.name b.srt).2 with
    | mk vs' d2' =>
    rw [hr] at h
    simp only [Prod.mk.injEq] at h
    obtain ⟨rfl, rfl⟩ := h
    obtain ⟨new', k1, k2, k3, k4, k5, k6, k7, k8, k9⟩ := registerAll_spec hr o'
    have e : (d1.register b.name b.srt).2.next = d1.next + 1 := rfl
    refine ⟨.newVar b.srt.toType :: new', by simpa using k1, ?_, ?_, ?_, by omega, ?_, ?_, ?_,
      fun use => k9 use⟩
    · intro c hc
      rcases List.mem_cons.mp hc with rfl | hc
      exacts [⟨_, rfl⟩, k2 c hc]
    · simp [k3, Drv.register]
    · intro v hv
      rcases List.mem_cons.mp hv with rfl | hv
      · exact ⟨le_rfl, by simp only [Drv.register]; omega⟩
      · have := k4 v hv
        exact ⟨by have := this.1; omega, this.2⟩
    · refine List.nodup_cons.mpr ⟨fun hm => ?_, k6⟩
      have := (k4 _ hm).1
      simp [Drv.register] at this
    · intro v hv
      rcases k7 v hv with h | h
      · exact .inl (by simp [h])
      · rcases glob_fresh (d2 := d1) (d3 := (d1.register b.name b.srt).2) (n := b.name)
            (ty := b.srt.toType) rfl rfl h with rfl | h
        · exact .inl (by simp [Drv.register])
        · exact .inr h
    · intro I ρ E F m
      have := k8 I ρ _ F (match_fresh (d2 := d1) (d3 := (d1.register b.name b.srt).2) (n := b.name)
        (ty := b.srt.toType) rfl rfl m)
      simpa [Names.binds, Drv.register] using this

theorem declareParams_spec {d : Drv} : ∀ {ps : List (String × Srt)} {d1 d2 : Drv}
    {vs : List Variable} {new : List Cmd}, declareParams use ps d1 = (vs, d2) → Opened B d d1 new →
    ∃ new', Opened B d d2 (new ++ new') ∧ (∀ c ∈ new', (∃ t, c = .newVar t) ∨ ∃ v, c = .declare v false) ∧
      vs.map Variable.type = ps.map (fun p => p.2.toType) ∧ (∀ v ∈ vs, New d1 d2 v) ∧
      d1.next ≤ d2.next ∧ vs.Nodup ∧ (∀ v, Glob d2 v → v ∈ vs ∨ Glob d1 v) ∧
      (∀ I ρ E F, Match I d1 ρ E F →
        Match I d2 ρ (E.params ps (vs.map fun v => toVal v.type (ρ v))) F) ∧
      d2.next = count use d1.log d1.next new' ∧ (∀ G, Ordered use G d1.log d1.next new') ∧
      ∀ v ∈ vs, DeclIn new' v
  | [], d1, d2, vs, new, h, o => by
    simp only [declareParams, Prod.mk.injEq] at h
    obtain ⟨rfl, rfl⟩ := h
    exact ⟨[], by simpa using o, by simp, rfl, by simp, le_rfl, by simp, fun v hv => .inr hv,
      fun I ρ E F m => m, rfl, fun _ => trivial, by simp⟩
  | (n, s) :: ps, d1, d2, vs, new, h, o => by
    simp only [declareParams] at h
    have e : d1.next < (d1.declareLocal use n s).2.next := by
      simp only [Drv.declareLocal, Drv.register, Drv.call]; omega
    have o' := o.fresh (d3 := (d1.declareLocal use n s).2) (n := n) (ty := s.toType)
      (cs := [.newVar s.toType, .declare ⟨d1.next, s.toType⟩ false]) rfl rfl e
      (by simp [Drv.declareLocal, Drv.register, Drv.call])
      (by simp [Quiet]) (fun I ρ => ⟨0, by simp [CmdHolds, typeOk_zero]⟩)
    cases hr : declareParams use ps (d1.declareLocal use n s).2 with
    | mk vs' d2' =>
    rw [hr] at h
    simp only [Prod.mk.injEq] at h
    obtain ⟨rfl, rfl⟩ := h
    obtain ⟨new', k1, k2, k3, k4, k5, k6, k7, k8, k9, k10, k11⟩ := declareParams_spec hr o'
    have el : (d1.declareLocal use n s).2.log =
        d1.log ++ [.newVar s.toType, .declare ⟨d1.next, s.toType⟩ false] := by
      simp [Drv.declareLocal, Drv.register, Drv.call]
    have en : (d1.declareLocal use n s).2.next = count use d1.log d1.next
        [.newVar s.toType, .declare ⟨d1.next, s.toType⟩ false] := by
      simp [Drv.declareLocal, Drv.register, Drv.call, count]
    refine ⟨.newVar s.toType :: .declare ⟨d1.next, s.toType⟩ false :: new', by simpa using k1, ?_, ?_,
      ?_, by omega, ?_, ?_, ?_, ?_, ?_, ?_⟩
    · intro c hc
      rcases List.mem_cons.mp hc with rfl | hc
      · exact .inl ⟨_, rfl⟩
      rcases List.mem_cons.mp hc with rfl | hc
      exacts [.inr ⟨_, rfl⟩, k2 c hc]
    · simp [k3, Drv.register, Drv.declareLocal]
    · intro v hv
      rcases List.mem_cons.mp hv with rfl | hv
      · exact ⟨le_rfl, lt_of_lt_of_le e k5⟩
      · have := k4 v hv
        exact ⟨by have := this.1; omega, this.2⟩
    · refine List.nodup_cons.mpr ⟨fun hm => ?_, k6⟩
      have := (k4 _ hm).1
      have e2 : (d1.declareLocal use n s).1.id = d1.next := rfl
      omega
    · intro v hv
      rcases k7 v hv with h | h
      · exact .inl (by simp [h])
      · rcases glob_fresh (d2 := d1) (d3 := (d1.declareLocal use n s).2) (n := n)
            (ty := s.toType) rfl rfl h with rfl | h
        · exact .inl (by simp [Drv.register, Drv.declareLocal])
        · exact .inr h
    · intro I ρ E F m
      have := k8 I ρ _ F (match_fresh (d2 := d1) (d3 := (d1.declareLocal use n s).2) (n := n)
        (ty := s.toType) rfl rfl m)
      simpa [Names.params, Drv.register, Drv.declareLocal] using this
    · rw [k9, en, el]
      exact (count_append [_, _] new' _ _).symm
    · intro G
      refine (ordered_append [_, _] new').mpr ⟨⟨trivial, ⟨rfl, by simp⟩, trivial⟩, ?_⟩
      rw [← en, ← el]
      exact k10 _
    · intro v hv
      rcases List.mem_cons.mp hv with rfl | hv
      · exact ⟨false, by simp [Drv.register, Drv.declareLocal]⟩
      · obtain ⟨m, hm⟩ := k11 v hv
        exact ⟨m, by simp [hm]⟩

/-- The formula `let_binding_list` asserts. -/
def letF (v : Variable) : Term → Fml
  | .fml f => orF (andF (.bvar v) f) (andF (notF (.bvar v)) (notF f))
  | .expr e => mkRel .eq (.var v) e

def letT : Term → VType
  | .fml _ => .boolean
  | .expr _ => .continuous

theorem letF_holds {v : Variable} {t : Term} (hv : v.type = letT t) :
    holds I ρ (letF v t) ↔ toVal v.type (ρ v) = valT I ρ t := by
  cases t with
  | expr e => simp [letF, toVal, hv, letT, valT, relSem, eval]
  | fml f =>
    simp only [letF, toVal, hv, letT, valT, holds_orF, holds_andF, holds_notF, holds_bvar, if_true,
      SVal.tf.injEq, eq_iff_iff]
    tauto

theorem toVal_toNum {t : VType} {x : SVal} (h : KindOk t x) : toVal t (toNum x) = x := by
  cases x with
  | num x => simp only [KindOk] at h; simp [toVal, h, toNum]
  | tf p =>
    simp only [KindOk] at h
    by_cases hp : p <;> simp [toVal, h, toNum, hp]
  | bad => simp [KindOk] at h

theorem kindOk_letT {t : Term} : KindOk (letT t) (valT I ρ t) := by
  cases t <;> simp [letT, valT, KindOk]

theorem letF_fv {v : Variable} {t : Term} {P : Variable → Prop} (h1 : P v) (h2 : ∀ w ∈ t.fv, P w) :
    FvIn P (letF v t) := by
  cases t with
  | expr e => exact FvIn.rel' (by simpa [Expr.vars] using h1) h2
  | fml f =>
    have hv : FvIn P (.bvar v) := FvIn_bvar.mpr h1
    exact FvIn.orF (FvIn.andF hv h2) (FvIn.andF (FvIn.notF hv) (FvIn.notF h2))

theorem letF_tq {v : Variable} {t : Term} {Q} (h : TQ Q t) : TQ Q (.fml (letF v t)) := by
  rw [tq_iff] at h ⊢
  cases t with
  | expr e => exact her_mkRel (by simp [HerE]) h
  | fml f =>
    have hv : HerF (fun _ => True) (fun _ => True) Q (.bvar v) := by simp [HerF]
    exact her_orF (her_andF hv h) (her_andF (her_notF hv) (her_notF h))

theorem bindLoop_spec {d : Drv} : ∀ {l : List (String × Term)} {d1 : Drv} {new : List Cmd},
    Opened B d d1 new → (∀ q ∈ l, ∀ v ∈ q.2.fv, v.id < d1.next) →
    (∀ q ∈ l, TQ (fun vs _ => ∀ v ∈ vs, v.id < d1.next) q.2) →
    ∃ new', Opened B d (bindLoop use l d1) (new ++ new') ∧ d1.next ≤ (bindLoop use l d1).next ∧
      (∀ I ρ E F, Match I d1 ρ E F → (∀ c ∈ new', CmdHolds I ρ c) →
        Match I (bindLoop use l d1) ρ (l.foldl (fun E q => E.set q.1 (valT I ρ q.2)) E) F) ∧
      (bindLoop use l d1).next = count use d1.log d1.next new' ∧
      (∀ G : Variable → Prop, (∀ q ∈ l, ∀ v ∈ q.2.fv, G v) → Ordered use G d1.log d1.next new') ∧
      ∀ v, Glob (bindLoop use l d1) v → Glob d1 v ∨ DeclIn new' v
  | [], d1, new, o, _, _ => ⟨[], by simpa [bindLoop] using o, by simp [bindLoop],
      fun I ρ E F m _ => by simpa [bindLoop] using m, rfl, fun _ _ => trivial, fun v hv => .inl hv⟩
  | (n, t) :: l, d1, new, o, hl, hb => by
    obtain ⟨d3, e, hs, hf, hlt, hlog, hcnt⟩ : ∃ d3 : Drv, bindLoop use ((n, t) :: l) d1 = bindLoop use l d3 ∧
        d3.scope = d1.scope.insert n ⟨d1.next, letT t⟩ ∧ d3.funs = d1.funs ∧ d1.next < d3.next ∧
        d3.log = d1.log ++ [.newVar (letT t), .declare ⟨d1.next, letT t⟩ false,
          .assert (letF ⟨d1.next, letT t⟩ t)] ∧
        d3.next = count use d1.log d1.next [.newVar (letT t), .declare ⟨d1.next, letT t⟩ false,
          .assert (letF ⟨d1.next, letT t⟩ t)] := by
      cases t with
      | expr e =>
        refine ⟨_, rfl, rfl, rfl, ?_, ?_, ?_⟩
        · simp only [Drv.declareLocal, Drv.register, Drv.call]; omega
        · simp [Drv.declareLocal, Drv.register, Drv.call, letT, letF, Srt.toType]
        · simp [Drv.declareLocal, Drv.register, Drv.call, letT, letF, Srt.toType, count]
      | fml e =>
        refine ⟨_, rfl, rfl, rfl, ?_, ?_, ?_⟩
        · simp only [Drv.declareLocal, Drv.register, Drv.call]; omega
        · simp [Drv.declareLocal, Drv.register, Drv.call, letT, letF, Srt.toType]
        · simp [Drv.declareLocal, Drv.register, Drv.call, letT, letF, Srt.toType, count]
    have hfv : ∀ v ∈ t.fv, v.id < d1.next := hl (n, t) (by simp)
    have o' := o.fresh hs hf hlt hlog
      (by
        intro c hc
        simp only [List.mem_cons, List.not_mem_nil, or_false] at hc
        rcases hc with rfl | rfl | rfl
        · trivial
        · exact ⟨rfl, by simp⟩
        · exact letF_fv (by simp) fun w hw => by have := hfv w hw; omega)
      (fun I ρ => ⟨toNum (valT I ρ t), by
        have same : valT I (fun v => if v = ⟨d1.next, letT t⟩ then toNum (valT I ρ t) else ρ v) t
            = valT I ρ t := valT_congr fun v hv => by
          have : v ≠ ⟨d1.next, letT t⟩ := by rintro rfl; have := hfv _ hv; simp at this
          simp [this]
        intro c hc
        simp only [List.mem_cons, List.not_mem_nil, or_false] at hc
        rcases hc with rfl | rfl | rfl
        · trivial
        · simp only [CmdHolds, if_true]
          cases t with
          | expr e => trivial
          | fml f => 
            simp only [letT, typeOk, valT, toNum]
            by_cases hp : holds I ρ f <;> simp [hp]
        · simp only [CmdHolds]
          refine (letF_holds rfl).mpr ?_
          rw [same]
          simp only [if_true]
          exact toVal_toNum kindOk_letT⟩)
    obtain ⟨new', k1, k2, k3, k4, k5, k6⟩ := bindLoop_spec (l := l) o' (fun q hq v hv => by
      have := hl q (by simp [hq]) v hv; omega) fun q hq =>
        (hb q (by simp [hq])).mono fun vs _ k v hv => lt_trans (k v hv) hlt
    rw [e]
    refine ⟨_ ++ new', by rw [← List.append_assoc]; exact k1, by omega, fun I ρ E F m hc => ?_,
      ?_, fun G hG => ?_, fun v hv => ?_⟩
    rotate_left
    · rw [count_append, ← hcnt, ← hlog]; exact k4
    · refine (ordered_append _ _).mpr ⟨⟨trivial, ⟨rfl, by simp⟩, ⟨?_, ?_⟩, trivial⟩, ?_⟩
      · exact letF_fv (.inr rfl) fun w hw => .inl (hG (n, t) (by simp) w hw)
      · refine old_of _ (letF_fv ?_ fun w hw => ?_) (letF_tq ?_)
        · simp only [count]; omega
        · have := hfv w hw
          simp only [count]; omega
        · refine (hb (n, t) (by simp)).mono fun vs _ k v hv => ?_
          have := k v hv
          simp only [count]; omega
      · rw [← hcnt, ← hlog]
        exact k5 _ fun q hq v hv => .inl (hG q (by simp [hq]) v hv)
    · rw [declIn_append]
      rcases k6 v hv with h | h
      · rcases glob_fresh hs hf h with rfl | h
        · exact .inr (.inl ⟨false, by simp⟩)
        · exact .inl h
      · exact .inr (.inr h)
    refine k3 I ρ _ F ?_ fun c hc' => hc c (by simp [hc'])
    have := match_fresh hs hf m
    have hv : holds I ρ (letF ⟨d1.next, letT t⟩ t) := hc (.assert _) (by simp)
    have hv' := (letF_holds (ρ := ρ) (I := I) (v := ⟨d1.next, letT t⟩) (t := t) rfl).mp hv
    simp only at hv'
    rwa [hv'] at this

theorem sets_foldl : ∀ (ns : List String) (xs : List Term) (E : Names),
    E.sets ns (xs.map (valT I ρ)) =
      (ns.zip xs).reverse.foldl (fun E q => E.set q.1 (valT I ρ q.2)) E
  | [], xs, E => by simp [Names.sets]
  | n :: ns, [], E => by simp [Names.sets]
  | n :: ns, x :: xs, E => by
    simp only [List.map_cons, Names.sets, List.zip_cons_cons, List.reverse_cons, List.foldl_append,
      List.foldl_cons, List.foldl_nil]
    rw [sets_foldl ns xs E]

theorem tame_cases {bs : List SBind} (h : TameBinds bs) :
    (∀ b ∈ bs, b.dom = none) ∨ ∃ b, bs = [b] ∧ Spec.Smt2.SBind.Inhabited b := by
  match bs, h with
  | [], _ => exact .inl (by simp)
  | [b], h => exact .inr ⟨b, rfl, h⟩
  | a :: b :: bs, h => exact .inl h

theorem boundedVars_nil : ∀ {bs : List SBind} {vs : List Variable}, (∀ b ∈ bs, b.dom = none) →
    boundedVars bs vs = []
  | [], _, _ => rfl
  | b :: bs, [], _ => rfl
  | b :: bs, v :: vs, h => by
    simp only [boundedVars, h b (by simp)]
    exact boundedVars_nil fun c hc => h c (by simp [hc])

theorem exists_map {vs : List Variable} (h : vs.Nodup) (ρ : Valuation) :
    ∀ {xs : List ℝ}, vs.length = xs.length →
    ∃ ρ' : Valuation, vs.map ρ' = xs ∧ ∀ v, v ∉ vs → ρ' v = ρ v := by
  induction vs with
  | nil =>
    intro xs hl
    refine ⟨ρ, ?_, fun _ _ => rfl⟩
    cases xs with
    | nil => rfl
    | cons _ _ => simp at hl
  | cons v vs ih =>
    intro xs hl
    cases xs with
    | nil => simp at hl
    | cons x xs =>
      obtain ⟨h1, h2⟩ := List.nodup_cons.mp h
      obtain ⟨ρ', e1, e2⟩ := ih h2 (xs := xs) (by simpa using hl)
      refine ⟨fun w => if w = v then x else ρ' w, ?_, fun w hw => ?_⟩
      · simp only [List.map_cons, if_true, List.cons.injEq, true_and]
        rw [← e1]
        refine List.map_congr_left fun w hw => ?_
        have : w ≠ v := by rintro rfl; exact h1 hw
        simp [this]
      · simp only [List.mem_cons, not_or] at hw
        simp [hw.1, e2 w hw.2]

theorem inBinds_length : ∀ {bs : List SBind} {xs : List ℝ}, InBinds bs xs → bs.length = xs.length
  | [], [], _ => rfl
  | [], _ :: _, h => by simp [InBinds] at h
  | _ :: _, [], h => by simp [InBinds] at h
  | b :: bs, x :: xs, h => by
    simp only [InBinds] at h
    simp [inBinds_length h.2.2]

/-! ## Quantifiers, `let` and calls -/

theorem post_all {d d2 d3 d4 : Drv} {bs : List SBind} {body : STerm} {vs : List Variable} {dom f : Fml}
    {x : Term} (hi : Inv B d) (hr : registerAll bs d.pushScope = (vs, d2))
    (hd : domain bs vs = .ok dom)
    (ih : ∀ {B d x d'}, Inv B d → tr use body d = .ok (x, d') →
      ∃ new, Post use B (LetFree body) (Tame body) d d' [x] (fun I E F => [den I E F body]) new)
    (ht : tr use body d2 = .ok (x, d3)) (hp : d3.popScope = .ok d4) (hx : x.formula = .ok f) :
    ∃ new, Post use B (LetFree (.all bs body)) (Tame (.all bs body)) d d4 [.fml (mkForall vs dom f)]
      (fun I E F => [den I E F (.all bs body)]) new := by
  have := formula_ok hx
  subst this
  obtain ⟨new1, o, n1, ty, fr, _, nd, gl, mt, ct⟩ := registerAll_spec hr (opened_push hi)
  obtain ⟨new2, p⟩ := ih o.inv ht
  have o3 := o.post p
  obtain ⟨c1, c2, c3, c4⟩ := o3.close hp
  obtain ⟨m1, m2, m3, m4, m5, m6⟩ := domain_spec hd ty
  have sf : SortedF f := p.sorted (.fml f) (by simp)
  obtain ⟨s1, s2, s3⟩ := mkForall_struct (vs := vs) sf m2 m1 fun v hv => (m5 v hv).1
  have lp := p.lt
  have lo := o.lt
  have newvs : ∀ v ∈ vs, New d d4 v := fun v hv => by
    have := fr v hv
    exact ⟨this.1, by have := this.2; omega⟩
  have gd : ∀ v, Glob d.pushScope v ↔ Glob d v := fun v => Iff.rfl
  have pure : Tame (.all bs body) → (∀ c ∈ [] ++ new1 ++ new2, ∃ t, c = .newVar t) ∧
      ∀ r ∈ [Term.fml (mkForall vs dom f)], ∀ v ∈ r.fv, Glob d v := by
    intro htm
    simp only [Tame] at htm
    obtain ⟨a1, a2⟩ := p.pure htm.2.1 htm.2.2
    refine ⟨fun c hc => ?_, ?_⟩
    · simp only [List.nil_append, List.mem_append] at hc
      rcases hc with hc | hc
      exacts [n1 c hc, a1 c hc]
    · simp only [List.mem_singleton, forall_eq]
      refine s2 _ (fun v hv hn => ?_) (fun v hv he => ?_)
      · rcases gl v (a2 (.fml f) (by simp) v hv) with h | h
        · exact absurd h hn
        · exact h
      · rcases tame_cases htm.1 with hb | ⟨b, rfl, _⟩
        · rw [boundedVars_nil hb] at hv; simp at hv
        · left
          obtain ⟨w, hw, hw'⟩ := he
          have hlen : vs.length = 1 := by simpa using congrArg List.length ty
          obtain ⟨u, rfl⟩ := List.length_eq_one_iff.mp hlen
          have e1 := (m5 v hv).1
          simp only [List.mem_singleton] at hw e1
          rw [e1]; rw [hw] at hw'; exact hw'
  refine ⟨[] ++ new1 ++ new2, ?_⟩
  constructor
  · exact c1
  · omega
  · exact c3
  · exact c4
  · intro c hc
    rw [c2]
    exact o3.quiet c hc
  · simpa using (show TSorted (.fml (mkForall vs dom f)) from s1)
  · simp only [List.mem_singleton, forall_eq]
    refine s2 _ (fun v hv hn => ?_) (fun v hv _ => ?_)
    · rcases p.free (.fml f) (by simp) v hv with h | h
      · rcases gl v h with h | h
        · exact absurd h hn
        · exact .inl h
      · exact .inr ⟨by have := h.1; omega, by have := h.2; omega⟩
    · exact .inr (.inr (newvs v (m5 v hv).1))
  · simp only [List.mem_singleton, forall_eq]
    refine s3 _ (fun v hv => .inr (newvs v hv)) (m3 _) ?_
    exact (p.bnd _ (by simp)).mono fun vs _ k v hv =>
      (k v hv).imp id fun h => ⟨by have := h.1; omega, by have := h.2; omega⟩
  · exact fun _ htm => pure htm
  · intro htm I ρ E F m _
    simp only [Tame] at htm
    obtain ⟨a1, a2⟩ := p.pure htm.2.1 htm.2.2
    have quiet : ∀ ρ', ∀ c ∈ new2, CmdHolds I ρ' c := by
      intro ρ' c hc
      obtain ⟨t, rfl⟩ := a1 c hc
      trivial
    have bodyv : ∀ ρ' : Valuation, (∀ v, v ∉ vs → ρ' v = ρ v) →
        SVal.tf (holds I ρ' f) = den I (E.binds bs (vs.map ρ')) F body := by
      intro ρ' hρ
      have mm : Match I d ρ' E F := m.congr fun v hv => hρ v fun hm => by
        have := (fr v hm).1
        have := (hi.glob v hv).1
        simp only [Drv.pushScope] at *
        omega
      have m2 := mt I ρ' E F (mm.maps rfl rfl)
      have := p.sem htm.2.2 I ρ' _ F m2 (quiet ρ')
      simpa [valT] using this
    have key : holds I ρ (mkForall vs dom f) ↔ ∀ ρ' : Valuation, (∀ v, v ∉ vs → ρ' v = ρ v) →
        (∀ v ∈ vs, typeOk v.type (ρ' v)) → holds I ρ' dom → holds I ρ' f := by
      refine mkForall_spec sf m1 m5 m4 ?_
      rcases tame_cases htm.1 with hb | ⟨b, rfl, x, hx⟩
      · left; rw [boundedVars_nil hb]; simp
      · right
        have hlen : vs.length = 1 := by simpa using congrArg List.length ty
        obtain ⟨u, rfl⟩ := List.length_eq_one_iff.mp hlen
        refine ⟨u, rfl, x, ?_⟩
        have h0 := fun ρ : Valuation => (m6 I ρ)
        simp only [List.map_cons, List.map_nil, List.mem_singleton, forall_eq] at h0
        refine ⟨?_, fun σ hσ => ?_⟩
        · have := ((h0 fun _ => x).mp hx).1
          exact this
        · have := ((h0 σ).mp (by rw [hσ]; exact hx)).2
          exact this
    simp only [List.map_cons, List.map_nil, valT, den, List.cons.injEq, and_true, SVal.tf.injEq,
      eq_iff_iff]
    rw [key]
    constructor
    · intro h xs hxs
      have hlen : vs.length = xs.length := by
        rw [← inBinds_length hxs]
        simpa using congrArg List.length ty
      obtain ⟨ρ', e1, e2⟩ := exists_map nd ρ hlen
      have hb := (m6 I ρ').mp (by rw [e1]; exact hxs)
      have := bodyv ρ' e2
      rw [e1] at this
      rw [← this]
      exact h ρ' e2 hb.1 hb.2
    · intro h ρ' e1 e2 e3
      have := h (vs.map ρ') ((m6 I ρ').mpr ⟨e2, e3⟩)
      rw [← bodyv ρ' e1] at this
      exact this
  · exact o3.ex
  · rw [c2, p.cnt, List.nil_append, count_append]
    have e := ct use
    have e' : d2.log = d.log ++ new1 := by simpa using o.log
    have e'' : d.pushScope.log = d.log := rfl
    have e3 : d.pushScope.next = d.next := rfl
    rw [e, e', e'', e3]
  · intro htm G hG
    obtain ⟨a1, a2⟩ := pure htm
    exact ⟨ordered_newVars _ a1, fun r hr v hv => .inl (hG v (a2 r hr v hv))⟩

theorem post_let {d d2 d4 d5 : Drv} {ns : List String} {ts : List STerm} {body : STerm}
    {xs : List Term} {x : Term} (hi : Inv B d)
    (ihs : ∀ {B d xs d'}, Inv B d → trs use ts d = .ok (xs, d') →
      ∃ new, Post use B (LetFrees ts) (Tames ts) d d' xs (fun I E F => dens I E F ts) new)
    (ih : ∀ {B d x d'}, Inv B d → tr use body d = .ok (x, d') →
      ∃ new, Post use B (LetFree body) (Tame body) d d' [x] (fun I E F => [den I E F body]) new)
    (hts : trs use ts d.pushScope = .ok (xs, d2))
    (ht : tr use body (bindLoop use (ns.zip xs).reverse d2) = .ok (x, d4))
    (hp : d4.popScope = .ok d5) :
    ∃ new, Post use B (LetFree (.let_ ns ts body)) (Tame (.let_ ns ts body)) d d5 [x]
      (fun I E F => [den I E F (.let_ ns ts body)]) new := by
  have o1 := opened_push hi
  obtain ⟨new1, p1⟩ := ihs o1.inv hts
  have o2 := o1.post p1
  have inxs : ∀ q ∈ (ns.zip xs).reverse, q.2 ∈ xs := fun q hq =>
    (List.of_mem_zip (List.mem_reverse.mp hq)).2
  obtain ⟨new2, o3, l3, mt, ct, or2, gl2⟩ := bindLoop_spec (use := use) (l := (ns.zip xs).reverse) o2 (by
    intro q hq v hv
    rcases p1.free q.2 (inxs q hq) v hv with h | h
    · have := (hi.glob v h).1
      have := p1.lt
      simp only [Drv.pushScope] at this
      omega
    · exact h.2) (by
    intro q hq
    refine (p1.bnd q.2 (inxs q hq)).mono fun vs _ k v hv => ?_
    rcases k v hv with h | h
    · have := hi.bnd v h
      have := p1.lt
      simp only [Drv.pushScope] at this
      omega
    · exact h.2)
  have e0 : d.pushScope.log = d.log := rfl
  have e0' : d.pushScope.next = d.next := rfl
  have e1 : d2.log = d.log ++ new1 := by rw [p1.log, e0]
  have e2 : (bindLoop use (ns.zip xs).reverse d2).log = d.log ++ new1 ++ new2 := by
    simpa using o3.log
  have n1 : d2.next = count use d.log d.next new1 := by rw [p1.cnt, e0, e0']
  obtain ⟨new3, p4⟩ := ih o3.inv ht
  have o4 := o3.post p4
  obtain ⟨c1, c2, c3, c4⟩ := o4.close hp
  have l4 := p4.lt
  have l0 := o3.lt
  refine ⟨[] ++ new1 ++ new2 ++ new3, ?_⟩
  constructor
  · exact c1
  · omega
  · exact c3
  · exact c4
  · intro c hc; rw [c2]; exact o4.quiet c hc
  · exact p4.sorted
  · intro r hr v hv
    rcases p4.free r hr v hv with h | h
    · exact (o3.glob v h).imp id fun k => ⟨k.1, by have := k.2; omega⟩
    · exact .inr ⟨by have := h.1; omega, by have := h.2; omega⟩
  · intro r hr
    exact (p4.bnd r hr).mono fun vs _ k v hv =>
      (k v hv).imp id fun h => ⟨by have := h.1; omega, by have := h.2; omega⟩
  · intro h; simp [LetFree] at h
  · intro htm I ρ E F m hc
    simp only [Tame] at htm
    have s1 := p1.sem htm.2.1 I ρ E F (m.maps rfl rfl) fun c h => hc c (by simp [h])
    have m2 : Match I d2 ρ E F := (m.maps (d' := d.pushScope) rfl rfl).maps (p1.smap o1.inv) (p1.fmap o1.inv)
    have m3 := mt I ρ E F m2 fun c h => hc c (by simp [h])
    rw [← sets_foldl, s1] at m3
    rw [p4.sem htm.2.2 I ρ _ F m3 fun c h => hc c (by simp [h])]
    simp [den]
  · exact o4.ex
  · rw [c2, p4.cnt, List.nil_append, count_append, count_append, ← n1, ← e1, ← ct, e2,
      List.append_assoc]
  · intro htm G hG
    simp only [Tame] at htm
    obtain ⟨a1, a2⟩ := p1.ord htm.2.1 G fun v hv => hG v hv
    have b1 := or2 (fun v => G v ∨ DeclIn new1 v) fun q hq v hv => a2 q.2 (inxs q hq) v hv
    obtain ⟨d1, d2'⟩ := p4.ord htm.2.2 (fun v => (G v ∨ DeclIn new1 v) ∨ DeclIn new2 v) fun v hv => by
      rcases gl2 v hv with h | h
      · exact .inl (.inl (hG v ((Glob.congr (p1.smap o1.inv) (p1.fmap o1.inv)).mp h)))
      · exact .inr h
    refine ⟨?_, fun r hr v hv => ?_⟩
    · rw [List.nil_append]
      refine (ordered_append _ _).mpr ⟨(ordered_append _ _).mpr ⟨a1, ?_⟩, ?_⟩
      · rw [← n1, ← e1]; exact b1
      · rw [count_append, ← n1, ← e1, ← ct, ← List.append_assoc, ← e2]
        exact d1.mono _ fun v hv => by rw [declIn_append]; tauto
    · have := d2' r hr v hv
      rw [List.nil_append, declIn_append, declIn_append]; tauto

theorem kindOk_check {p : Variable} {a : Term} (h : a.checkType p.type = true) :
    KindOk p.type (valT I ρ a) := by
  obtain ⟨i, ty⟩ := p
  cases ty <;> cases a <;> simp [Term.checkType] at h <;> simp [valT, KindOk]

theorem post_call {d d' : Drv} {n : String} {ts : List STerm} {xs : List Term} {fd : FunDef} {r : Term}
    {new} (hi : Inv B d)
    (p : Post use B (LetFrees ts) (Tames ts) d d' xs (fun I E F => dens I E F ts) new)
    (hfd : d'.funs.map n = some fd) (ha : fd.apply xs = .ok r) :
    Post use B (LetFree (.call n ts)) (Tame (.call n ts)) d d' [r]
      (fun I E F => [den I E F (.call n ts)]) new := by
  rw [p.fmap hi] at hfd
  unfold FunDef.apply at ha
  split_ifs at ha with h1 h2
  have hlen : fd.params.length = xs.length := by simpa using h1
  have par := hi.params n fd hfd
  have notin : ∀ q ∈ fd.params, ∀ v, (Glob d v ∨ New d d' v) → q ≠ v := by
    rintro q hq v (h | h) rfl
    · exact (par q hq).2.1 h
    · have := (par q hq).1
      have := h.1
      omega
  have aok : ArgsOk fd.params xs := by
    refine ⟨p.sorted, fun q hq a ha hv => ?_, fun q hq a ha => ?_⟩
    · exact notin q hq q (p.free a ha q hv) rfl
    · refine (p.bnd a ha).mono fun vs _ k hm => ?_
      rcases k q hm with h | h
      · exact (par q hq).2.2 h
      · have := (par q hq).1
        have := h.1
        omega
  have safe : ∀ q ∈ fd.params.zip xs, TQ (SafeQ q.1 q.2.fv) fd.body := by
    intro q hq
    refine (hi.quant n fd hfd).mono fun vs f k _ w hw hm => ?_
    have hb := k w hm
    rcases p.free q.2 (List.of_mem_zip hq).2 w hw with h | h
    · exact (hi.glob w h).2 hb
    · have := hi.bnd w hb
      have := h.1
      omega
  have spec := fun I => applyLoop_spec (I := I) ha hlen aok (hi.sorted n fd hfd) safe
  obtain ⟨k1, _, k3, k4⟩ := spec ⟨fun _ _ => 0, fun _ _ _ => 0⟩
  constructor
  · exact p.log
  · exact p.lt
  · exact p.scope
  · exact p.funs
  · exact p.quiet
  · simpa using k1
  · simp only [List.mem_singleton, forall_eq]
    exact k3 _ (fun v hv hn => .inl (.inr ⟨n, fd, hfd, hv, hn⟩)) p.free
  · simp only [List.mem_singleton, forall_eq]
    exact k4 _ ((hi.quant n fd hfd).mono fun vs _ k v hv => .inl (k v hv)) p.bnd
  · intro a b
    simp only [LetFree, Tame] at a b
    refine ⟨(p.pure a b).1, ?_⟩
    simp only [List.mem_singleton, forall_eq]
    exact k3 _ (fun v hv hn => .inr ⟨n, fd, hfd, hv, hn⟩) (p.pure a b).2
  · intro b I ρ E F m hc
    simp only [Tame] at b
    have s := p.sem b I ρ E F m hc
    have kinds := applyLoop_kinds ha hlen
    have fk : List.Forall₂ (fun q a => KindOk q.type a) fd.params (xs.map (valT I ρ)) := by
      rw [List.forall₂_map_right_iff]
      exact kinds.imp fun q a h => kindOk_check h
    have := m.funs n fd hfd _ fk
    simp only [List.map_cons, List.map_nil, den, List.cons.injEq, and_true]
    rw [(spec I).2.1 ρ, ← s, this]
  · exact p.ex
  · exact p.cnt
  · intro b G hG
    simp only [Tame] at b
    refine ⟨(p.ord b G hG).1, ?_⟩
    simp only [List.mem_singleton, forall_eq]
    exact k3 _ (fun v hv hn => .inl (hG v (.inr ⟨n, fd, hfd, hv, hn⟩))) (p.ord b G hG).2

/-! ## All terms -/

theorem post_leaf {d : Drv} {r : Term} {lf tm : Prop} {R : Interp → Names → Funs → SVal}
    (hs : TSorted r) (hf : ∀ v ∈ r.fv, Glob d v) (hq : TQ (fun _ _ => False) r)
    (hv : ∀ I ρ E F, Match I d ρ E F → valT I ρ r = R I E F) :
    Post use B lf tm d d [r] (fun I E F => [R I E F]) [] where
  log := by simp
  lt := le_rfl
  scope := fun _ h => h
  funs := fun _ h => h
  quiet := by simp
  sorted := by simpa using hs
  free := by simpa using fun v hv => Or.inl (hf v hv)
  bnd := by simpa using hq.mono fun vs _ h => h.elim
  pure := fun _ _ => ⟨by simp, by simpa using hf⟩
  sem := fun _ I ρ E F m _ => by simpa using hv I ρ E F m
  ex := fun I ρ => ⟨ρ, fun _ _ => rfl, by simp⟩
  cnt := rfl
  ord := fun _ G hG => ⟨trivial, by simpa using fun v hv => Or.inl (hG v (hf v hv))⟩

mutual
theorem tr_post : ∀ (t : STerm) {B : Variable → Prop} {d : Drv} {x : Term} {d' : Drv}, Inv B d →
    tr use t d = .ok (x, d') →
    ∃ new, Post use B (LetFree t) (Tame t) d d' [x] (fun I E F => [den I E F t]) new
  | .tru, B, d, x, d', hi, h => by
    simp only [tr, Outcome.ok.injEq, Prod.mk.injEq] at h
    obtain ⟨rfl, rfl⟩ := h
    exact ⟨[], post_leaf (by simp [TSorted, SortedF]) (by simp [Term.fv, Fml.fv]) (by simp [TQ, HerF])
      fun I ρ E F _ => by simp [valT, den]⟩
  | .fls, B, d, x, d', hi, h => by
    simp only [tr, Outcome.ok.injEq, Prod.mk.injEq] at h
    obtain ⟨rfl, rfl⟩ := h
    exact ⟨[], post_leaf (by simp [TSorted, SortedF]) (by simp [Term.fv, Fml.fv]) (by simp [TQ, HerF])
      fun I ρ E F _ => by simp [valT, den]⟩
  | .num q, B, d, x, d', hi, h => by
    simp only [tr, Outcome.ok.injEq, Prod.mk.injEq] at h
    obtain ⟨rfl, rfl⟩ := h
    exact ⟨[], post_leaf (by simp [TSorted, SortedE]) (by simp [Term.fv, Expr.vars]) (by simp [TQ, HerE])
      fun I ρ E F _ => by simp [valT, den, eval]⟩
  | .dec q, B, d, x, d', hi, h => by
    simp only [tr, Outcome.ok.injEq, Prod.mk.injEq] at h
    obtain ⟨rfl, rfl⟩ := h
    exact ⟨[], post_leaf (by simp [TSorted, SortedE]) (by simp [Term.fv, Expr.vars]) (by simp [TQ, HerE])
      fun I ρ E F _ => by simp [valT, den, eval]⟩
  | .sym n, B, d, x, d', hi, h => by
    simp only [tr] at h
    obtain ⟨v, hv, h⟩ := bindO_ok h
    have hv' : d.scope.map n = some v := by
      unfold ScopedMap.at? at hv
      split at hv <;> simp_all
    split_ifs at h with hb
    all_goals
      simp only [Outcome.ok.injEq, Prod.mk.injEq] at h
      obtain ⟨rfl, rfl⟩ := h
    · exact ⟨[], post_leaf (by simpa [TSorted, SortedF] using hb)
        (by simpa [Term.fv, Fml.fv] using .inl ⟨n, hv'⟩) (by simp [TQ, HerF])
        fun I ρ E F m => by simp [valT, den, m.names n v hv', toVal, hb]⟩
    · exact ⟨[], post_leaf (by simpa [TSorted, SortedE] using hb)
        (by simpa [Term.fv, Expr.vars] using .inl ⟨n, hv'⟩) (by simp [TQ, HerE])
        fun I ρ E F m => by simp [valT, den, m.names n v hv', toVal, hb, eval]⟩
  | .eq a b, B, d, x, d', hi, h => by
    simp only [tr] at h
    obtain ⟨⟨y, d1⟩, h1, h⟩ := bindO_ok h
    obtain ⟨⟨z, d2⟩, h2, h⟩ := bindO_ok h
    obtain ⟨t, ht, h⟩ := bindO_ok h
    simp only [Outcome.ok.injEq, Prod.mk.injEq] at h
    obtain ⟨rfl, rfl⟩ := h
    obtain ⟨n1, p1⟩ := tr_post a hi h1
    obtain ⟨n2, p2⟩ := tr_post b (p1.inv hi) h2
    obtain ⟨c, hv⟩ := mkEq_spec ht
    refine ⟨_, (p1.append hi p2 id id).make c (by simp [LetFree]) (by simp [Tame])
      fun I ρ E F e => ?_⟩
    simp only [List.cons_append, List.nil_append, List.map_cons, List.map_nil, List.cons.injEq,
      and_true] at e
    rw [hv, e.1, e.2]; simp [den]
  | .rel o a b, B, d, x, d', hi, h => by
    simp only [tr] at h
    obtain ⟨⟨y, d1⟩, h1, h⟩ := bindO_ok h
    obtain ⟨⟨z, d2⟩, h2, h⟩ := bindO_ok h
    obtain ⟨e1, ht1, h⟩ := bindO_ok h
    obtain ⟨e2, ht2, h⟩ := bindO_ok h
    simp only [Outcome.ok.injEq, Prod.mk.injEq] at h
    obtain ⟨rfl, rfl⟩ := h
    obtain ⟨n1, p1⟩ := tr_post a hi h1
    obtain ⟨n2, p2⟩ := tr_post b (p1.inv hi) h2
    have := expression_ok ht1
    subst this
    have := expression_ok ht2
    subst this
    refine ⟨_, (p1.append hi p2 id id).make conseq_rel (by simp [LetFree]) (by simp [Tame])
      fun I ρ E F e => ?_⟩
    simp only [List.cons_append, List.nil_append, List.map_cons, List.map_nil, List.cons.injEq,
      and_true, valT] at e
    simp only [valT, den, ← e.1, ← e.2, liftR, holds_mkRel]
    cases o <;> simp [SRel.op, relSem, relOf]
  | .and ts, B, d, x, d', hi, h => by
    simp only [tr] at h
    obtain ⟨⟨xs, d1⟩, h1, h⟩ := bindO_ok h
    obtain ⟨f, hf, h⟩ := bindO_ok h
    simp only [Outcome.ok.injEq, Prod.mk.injEq] at h
    obtain ⟨rfl, rfl⟩ := h
    obtain ⟨n1, p1⟩ := trs_post ts hi h1
    obtain ⟨c, hv⟩ := foldFml_spec (P2 := (· ∧ ·)) (fun f g => conseq_and) (fun I ρ f g => holds_andF) hf
    have c0 : Conseq [] (.fml .tt) := .leaf (by simp [THer, HerF]) (by simp [Term.fv, Fml.fv])
    refine ⟨_, p1.make (c0.trans c) (by simp [LetFree]) (by simp [Tame]) fun I ρ E F e => ?_⟩
    rw [hv, e]; simp [den, valT]
  | .or ts, B, d, x, d', hi, h => by
    simp only [tr] at h
    obtain ⟨⟨xs, d1⟩, h1, h⟩ := bindO_ok h
    obtain ⟨f, hf, h⟩ := bindO_ok h
    simp only [Outcome.ok.injEq, Prod.mk.injEq] at h
    obtain ⟨rfl, rfl⟩ := h
    obtain ⟨n1, p1⟩ := trs_post ts hi h1
    obtain ⟨c, hv⟩ := foldFml_spec (P2 := (· ∨ ·)) (fun f g => conseq_or) (fun I ρ f g => holds_orF) hf
    have c0 : Conseq [] (.fml .ff) := .leaf (by simp [THer, HerF]) (by simp [Term.fv, Fml.fv])
    refine ⟨_, p1.make (c0.trans c) (by simp [LetFree]) (by simp [Tame]) fun I ρ E F e => ?_⟩
    rw [hv, e]; simp [den, valT]
  | .xor ts, B, d, x, d', hi, h => by
    simp only [tr] at h
    obtain ⟨⟨xs, d1⟩, h1, h⟩ := bindO_ok h
    obtain ⟨f, hf, h⟩ := bindO_ok h
    simp only [Outcome.ok.injEq, Prod.mk.injEq] at h
    obtain ⟨rfl, rfl⟩ := h
    obtain ⟨n1, p1⟩ := trs_post ts hi h1
    obtain ⟨c, hv⟩ := foldFml_spec (P2 := Xor) (fun f g => conseq_xor)
      (fun I ρ f g => by simp only [xorF, holds_orF, holds_andF, holds_notF, Xor]; tauto) hf
    have c0 : Conseq [] (.fml .ff) := .leaf (by simp [THer, HerF]) (by simp [Term.fv, Fml.fv])
    refine ⟨_, p1.make (c0.trans c) (by simp [LetFree]) (by simp [Tame]) fun I ρ E F e => ?_⟩
    rw [hv, e]; simp [den, valT]
  | .not t, B, d, x, d', hi, h => by
    simp only [tr] at h
    obtain ⟨⟨y, d1⟩, h1, h⟩ := bindO_ok h
    obtain ⟨f, hf, h⟩ := bindO_ok h
    simp only [Outcome.ok.injEq, Prod.mk.injEq] at h
    obtain ⟨rfl, rfl⟩ := h
    obtain ⟨n1, p1⟩ := tr_post t hi h1
    have := formula_ok hf
    subst this
    refine ⟨_, p1.make conseq_not (by simp [LetFree]) (by simp [Tame]) fun I ρ E F e => ?_⟩
    simp only [List.map_cons, List.map_nil, List.cons.injEq, and_true, valT] at e
    simp [valT, den, ← e, notV]
  | .imp a b, B, d, x, d', hi, h => by
    simp only [tr] at h
    obtain ⟨⟨y, d1⟩, h1, h⟩ := bindO_ok h
    obtain ⟨⟨z, d2⟩, h2, h⟩ := bindO_ok h
    obtain ⟨e1, ht1, h⟩ := bindO_ok h
    obtain ⟨e2, ht2, h⟩ := bindO_ok h
    simp only [Outcome.ok.injEq, Prod.mk.injEq] at h
    obtain ⟨rfl, rfl⟩ := h
    obtain ⟨n1, p1⟩ := tr_post a hi h1
    obtain ⟨n2, p2⟩ := tr_post b (p1.inv hi) h2
    have := formula_ok ht1
    subst this
    have := formula_ok ht2
    subst this
    refine ⟨_, (p1.append hi p2 id id).make conseq_imp (by simp [LetFree]) (by simp [Tame])
      fun I ρ E F e => ?_⟩
    simp only [List.cons_append, List.nil_append, List.map_cons, List.map_nil, List.cons.injEq,
      and_true, valT] at e
    simp only [valT, den, ← e.1, ← e.2, liftP, holds_orF, holds_notF, SVal.tf.injEq, eq_iff_iff]
    tauto
  | .ite c a b, B, d, x, d', hi, h => by
    simp only [tr] at h
    obtain ⟨⟨w, d0⟩, h0, h⟩ := bindO_ok h
    obtain ⟨⟨y, d1⟩, h1, h⟩ := bindO_ok h
    obtain ⟨⟨z, d2⟩, h2, h⟩ := bindO_ok h
    obtain ⟨f, hf, h⟩ := bindO_ok h
    obtain ⟨t, ht, h⟩ := bindO_ok h
    simp only [Outcome.ok.injEq, Prod.mk.injEq] at h
    obtain ⟨rfl, rfl⟩ := h
    obtain ⟨n0, p0⟩ := tr_post c hi h0
    obtain ⟨n1, p1⟩ := tr_post a (p0.inv hi) h1
    obtain ⟨n2, p2⟩ := tr_post b (p1.inv (p0.inv hi)) h2
    have := formula_ok hf
    subst this
    obtain ⟨cc, hv⟩ := mkIteT_spec ht
    refine ⟨_, (p0.append hi (p1.append (p0.inv hi) p2 id id) id id).make cc (by simp [LetFree])
      (by simp [Tame]) fun I ρ E F e => ?_⟩
    simp only [List.cons_append, List.nil_append, List.map_cons, List.map_nil, List.cons.injEq,
      and_true] at e
    rw [hv, e.2.1, e.2.2]
    simp only [valT] at e
    rw [e.1]; simp [den]
  | .all bs body, B, d, x, d', hi, h => by
    simp only [tr] at h
    obtain ⟨dom, hd, h⟩ := bindO_ok h
    obtain ⟨⟨y, d3⟩, h3, h⟩ := bindO_ok h
    obtain ⟨d4, h4, h⟩ := bindO_ok h
    obtain ⟨f, hf, h⟩ := bindO_ok h
    simp only [Outcome.ok.injEq, Prod.mk.injEq] at h
    obtain ⟨rfl, rfl⟩ := h
    exact post_all hi rfl hd (fun hi h => tr_post body hi h) h3 h4 hf
  | .let_ ns ts body, B, d, x, d', hi, h => by
    simp only [tr] at h
    obtain ⟨⟨xs, d2⟩, h2, h⟩ := bindO_ok h
    obtain ⟨⟨y, d4⟩, h4, h⟩ := bindO_ok h
    obtain ⟨d5, h5, h⟩ := bindO_ok h
    simp only [Outcome.ok.injEq, Prod.mk.injEq] at h
    obtain ⟨rfl, rfl⟩ := h
    exact post_let hi (fun hi h => trs_post ts hi h) (fun hi h => tr_post body hi h) h2 h4 h5
  | .add t ts, B, d, x, d', hi, h => by
    simp only [tr] at h
    obtain ⟨⟨y, d1⟩, h1, h⟩ := bindO_ok h
    obtain ⟨⟨xs, d2⟩, h2, h⟩ := bindO_ok h
    obtain ⟨r, hr, h⟩ := bindO_ok h
    simp only [Outcome.ok.injEq, Prod.mk.injEq] at h
    obtain ⟨rfl, rfl⟩ := h
    obtain ⟨n1, p1⟩ := tr_post t hi h1
    obtain ⟨n2, p2⟩ := trs_post ts (p1.inv hi) h2
    obtain ⟨c, hv⟩ := foldExpr_spec (R2 := fun _ x y => x + y) (fun f g => conseq_add)
      (fun I ρ f g => by simp [eval]) hr
    refine ⟨_, (p1.append hi p2 id id).make c (by simp [LetFree]) (by simp [Tame])
      fun I ρ E F e => ?_⟩
    simp only [List.cons_append, List.nil_append, List.map_cons, List.cons.injEq] at e
    rw [hv, e.1, e.2]; simp [den]
  | .neg t, B, d, x, d', hi, h => by
    simp only [tr] at h
    obtain ⟨⟨y, d1⟩, h1, h⟩ := bindO_ok h
    obtain ⟨f, hf, h⟩ := bindO_ok h
    simp only [Outcome.ok.injEq, Prod.mk.injEq] at h
    obtain ⟨rfl, rfl⟩ := h
    obtain ⟨n1, p1⟩ := tr_post t hi h1
    have := expression_ok hf
    subst this
    refine ⟨_, p1.make conseq_neg (by simp [LetFree]) (by simp [Tame]) fun I ρ E F e => ?_⟩
    simp only [List.map_cons, List.map_nil, List.cons.injEq, and_true, valT] at e
    simp [valT, den, ← e, lift1, eval]
  | .sub t ts, B, d, x, d', hi, h => by
    simp only [tr] at h
    obtain ⟨⟨y, d1⟩, h1, h⟩ := bindO_ok h
    obtain ⟨⟨xs, d2⟩, h2, h⟩ := bindO_ok h
    obtain ⟨r, hr, h⟩ := bindO_ok h
    simp only [Outcome.ok.injEq, Prod.mk.injEq] at h
    obtain ⟨rfl, rfl⟩ := h
    obtain ⟨n1, p1⟩ := tr_post t hi h1
    obtain ⟨n2, p2⟩ := trs_post ts (p1.inv hi) h2
    obtain ⟨c, hv⟩ := foldExpr_spec (R2 := fun _ x y => x - y) (fun f g => conseq_sub)
      (fun I ρ f g => by simp [Expr.sub, eval]; ring) hr
    refine ⟨_, (p1.append hi p2 id id).make c (by simp [LetFree]) (by simp [Tame])
      fun I ρ E F e => ?_⟩
    simp only [List.cons_append, List.nil_append, List.map_cons, List.cons.injEq] at e
    rw [hv, e.1, e.2]; simp [den]
  | .mul t ts, B, d, x, d', hi, h => by
    simp only [tr] at h
    obtain ⟨⟨y, d1⟩, h1, h⟩ := bindO_ok h
    obtain ⟨⟨xs, d2⟩, h2, h⟩ := bindO_ok h
    obtain ⟨r, hr, h⟩ := bindO_ok h
    simp only [Outcome.ok.injEq, Prod.mk.injEq] at h
    obtain ⟨rfl, rfl⟩ := h
    obtain ⟨n1, p1⟩ := tr_post t hi h1
    obtain ⟨n2, p2⟩ := trs_post ts (p1.inv hi) h2
    obtain ⟨c, hv⟩ := foldExpr_spec (R2 := fun _ x y => x * y) (fun f g => conseq_mul)
      (fun I ρ f g => by simp [eval]) hr
    refine ⟨_, (p1.append hi p2 id id).make c (by simp [LetFree]) (by simp [Tame])
      fun I ρ E F e => ?_⟩
    simp only [List.cons_append, List.nil_append, List.map_cons, List.cons.injEq] at e
    rw [hv, e.1, e.2]; simp [den]
  | .div t ts, B, d, x, d', hi, h => by
    simp only [tr] at h
    obtain ⟨⟨y, d1⟩, h1, h⟩ := bindO_ok h
    obtain ⟨⟨xs, d2⟩, h2, h⟩ := bindO_ok h
    obtain ⟨r, hr, h⟩ := bindO_ok h
    simp only [Outcome.ok.injEq, Prod.mk.injEq] at h
    obtain ⟨rfl, rfl⟩ := h
    obtain ⟨n1, p1⟩ := tr_post t hi h1
    obtain ⟨n2, p2⟩ := trs_post ts (p1.inv hi) h2
    obtain ⟨c, hv⟩ := foldExpr_spec (R2 := fun I => I.f2 .div) (fun f g => conseq_fn2)
      (fun I ρ f g => by simp [eval]) hr
    refine ⟨_, (p1.append hi p2 id id).make c (by simp [LetFree]) (by simp [Tame])
      fun I ρ E F e => ?_⟩
    simp only [List.cons_append, List.nil_append, List.map_cons, List.cons.injEq] at e
    rw [hv, e.1, e.2]; simp [den]
  | .fn1 f t, B, d, x, d', hi, h => by
    simp only [tr] at h
    obtain ⟨⟨y, d1⟩, h1, h⟩ := bindO_ok h
    obtain ⟨f, hf, h⟩ := bindO_ok h
    simp only [Outcome.ok.injEq, Prod.mk.injEq] at h
    obtain ⟨rfl, rfl⟩ := h
    obtain ⟨n1, p1⟩ := tr_post t hi h1
    have := expression_ok hf
    subst this
    refine ⟨_, p1.make conseq_fn1 (by simp [LetFree]) (by simp [Tame]) fun I ρ E F e => ?_⟩
    simp only [List.map_cons, List.map_nil, List.cons.injEq, and_true, valT] at e
    simp [valT, den, ← e, lift1, eval]
  | .fn2 f a b, B, d, x, d', hi, h => by
    simp only [tr] at h
    obtain ⟨⟨y, d1⟩, h1, h⟩ := bindO_ok h
    obtain ⟨⟨z, d2⟩, h2, h⟩ := bindO_ok h
    obtain ⟨e1, ht1, h⟩ := bindO_ok h
    obtain ⟨e2, ht2, h⟩ := bindO_ok h
    simp only [Outcome.ok.injEq, Prod.mk.injEq] at h
    obtain ⟨rfl, rfl⟩ := h
    obtain ⟨n1, p1⟩ := tr_post a hi h1
    obtain ⟨n2, p2⟩ := tr_post b (p1.inv hi) h2
    have := expression_ok ht1
    subst this
    have := expression_ok ht2
    subst this
    refine ⟨_, (p1.append hi p2 id id).make conseq_fn2 (by simp [LetFree]) (by simp [Tame])
      fun I ρ E F e => ?_⟩
    simp only [List.cons_append, List.nil_append, List.map_cons, List.map_nil, List.cons.injEq,
      and_true, valT] at e
    simp only [valT, den, ← e.1, ← e.2, lift2, eval]
  | .call n ts, B, d, x, d', hi, h => by
    simp only [tr] at h
    obtain ⟨⟨xs, d1⟩, h1, h⟩ := bindO_ok h
    obtain ⟨n1, p1⟩ := trs_post ts hi h1
    cases hfd : d1.funs.map n with
    | none => simp [hfd] at h
    | some fd =>
      simp only [hfd] at h
      obtain ⟨r, hr, h⟩ := bindO_ok h
      simp only [Outcome.ok.injEq, Prod.mk.injEq] at h
      obtain ⟨rfl, rfl⟩ := h
      exact ⟨_, post_call hi p1 hfd hr⟩
theorem trs_post : ∀ (ts : List STerm) {B : Variable → Prop} {d : Drv} {xs : List Term} {d' : Drv},
    Inv B d → trs use ts d = .ok (xs, d') →
    ∃ new, Post use B (LetFrees ts) (Tames ts) d d' xs (fun I E F => dens I E F ts) new
  | [], B, d, xs, d', hi, h => by
    simp only [trs, Outcome.ok.injEq, Prod.mk.injEq] at h
    obtain ⟨rfl, rfl⟩ := h
    refine ⟨[], ?_⟩
    simp only [dens]
    exact Post.nil
  | t :: ts, B, d, xs, d', hi, h => by
    simp only [trs] at h
    obtain ⟨⟨y, d1⟩, h1, h⟩ := bindO_ok h
    obtain ⟨⟨ys, d2⟩, h2, h⟩ := bindO_ok h
    simp only [Outcome.ok.injEq, Prod.mk.injEq] at h
    obtain ⟨rfl, rfl⟩ := h
    obtain ⟨n1, p1⟩ := tr_post t hi h1
    obtain ⟨n2, p2⟩ := trs_post ts (p1.inv hi) h2
    have := p1.append hi p2 (lf := LetFrees (t :: ts)) (tm := Tames (t :: ts)) (by simp [LetFrees])
      (by simp [Tames])
    refine ⟨n1 ++ n2, ?_⟩
    simp only [dens]
    exact this
end

end Verif.Proof.Smt2
