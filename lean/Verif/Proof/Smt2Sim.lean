import Verif.Proof.Smt2Run
import Verif.Proof.Smt2Scope

/-! # Drivers that agree on the names used do the same -/

namespace Verif.Proof.Smt2
open Verif Verif.Model Verif.Model.Smt2 Verif.Spec Verif.Spec.Smt2 Verif.Proof

variable {use : List Cmd → Nat}

/-- The drivers have made the same calls and agree on the names `ns` and functions `fs`. -/
structure Tied (ns fs : String → Prop) (d g : Drv) : Prop where
  log : g.log = d.log
  next : g.next = d.next
  names : ∀ n, ns n → g.scope.map n = d.scope.map n
  funs : ∀ n, fs n → g.funs.map n = d.funs.map n
  left : ∃ ts tf, Scopes d ts tf
  right : ∃ ts tf, Scopes g ts tf

theorem Tied.of_maps {ns fs : String → Prop} {d g d1 g1 : Drv} (h : Tied ns fs d g)
    (hl : g1.log = d1.log) (hn : g1.next = d1.next) (fd : ∀ ts tf, Scopes d ts tf → Scopes d1 ts tf)
    (fg : ∀ ts tf, Scopes g ts tf → Scopes g1 ts tf) : Tied ns fs d1 g1 := by
  obtain ⟨ts, tf, h1⟩ := h.left
  obtain ⟨us, uf, h2⟩ := h.right
  have k1 := fd _ _ h1
  have k2 := fg _ _ h2
  refine ⟨hl, hn, fun n k => ?_, fun n k => ?_, ⟨_, _, k1⟩, ⟨_, _, k2⟩⟩
  · rw [k2.1.1, k1.1.1, ← h1.1.1, ← h2.1.1]; exact h.names n k
  · rw [k2.2.1, k1.2.1, ← h1.2.1, ← h2.2.1]; exact h.funs n k

theorem Tied.mono {ns fs ns' fs' : String → Prop} {d g : Drv} (h : Tied ns fs d g)
    (h1 : ∀ n, ns' n → ns n) (h2 : ∀ n, fs' n → fs n) : Tied ns' fs' d g :=
  ⟨h.log, h.next, fun n k => h.names n (h1 n k), fun n k => h.funs n (h2 n k), h.left, h.right⟩

theorem Tied.push {ns fs : String → Prop} {d g : Drv} (h : Tied ns fs d g) :
    Tied ns fs d.pushScope g.pushScope := by
  obtain ⟨ts, tf, h1⟩ := h.left
  obtain ⟨us, uf, h2⟩ := h.right
  exact ⟨h.log, h.next, h.names, h.funs, ⟨_, _, scopes_push h1⟩, ⟨_, _, scopes_push h2⟩⟩

theorem Tied.call {ns fs : String → Prop} {d g : Drv} (h : Tied ns fs d g) (c : Cmd) :
    Tied ns fs (d.call use c) (g.call use c) :=
  ⟨by simp [Drv.call, h.log], by simp [Drv.call, h.log, h.next], h.names, h.funs, h.left, h.right⟩

theorem Tied.register {ns fs : String → Prop} {d g : Drv} (h : Tied ns fs d g) (n : String) (s : Srt) :
    (g.register n s).1 = (d.register n s).1 ∧
      Tied (fun m => m = n ∨ ns m) fs (d.register n s).2 (g.register n s).2 := by
  obtain ⟨ts, tf, h1⟩ := h.left
  obtain ⟨us, uf, h2⟩ := h.right
  refine ⟨by simp [Drv.register, h.next], by simp [Drv.register, h.log], by simp [Drv.register, h.next],
    fun m hm => ?_, h.funs, ⟨_, _, mrel_insert h1.1 _ _, h1.2⟩, ⟨_, _, mrel_insert h2.1 _ _, h2.2⟩⟩
  simp only [Drv.register, insert_map, ScopedMap.upd, h.next]
  split_ifs with hmn
  · rfl
  · exact h.names m (hm.resolve_left hmn)

theorem Tied.declareLocal {ns fs : String → Prop} {d g : Drv} (h : Tied ns fs d g) (n : String)
    (s : Srt) : (g.declareLocal use n s).1 = (d.declareLocal use n s).1 ∧
      Tied (fun m => m = n ∨ ns m) fs (d.declareLocal use n s).2 (g.declareLocal use n s).2 := by
  obtain ⟨h1, h2⟩ := h.register n s
  refine ⟨h1, ?_⟩
  simp only [Drv.declareLocal, h1]
  exact h2.call _

theorem Tied.declare {ns fs : String → Prop} {d g : Drv} (h : Tied ns fs d g) (n : String)
    (s : Srt) : (g.declare use n s).1 = (d.declare use n s).1 ∧
      Tied (fun m => m = n ∨ ns m) fs (d.declare use n s).2 (g.declare use n s).2 := by
  obtain ⟨h1, h2⟩ := h.register n s
  refine ⟨h1, ?_⟩
  simp only [Drv.declare, h1]
  exact h2.call _

theorem tied_registerAll : ∀ (bs : List SBind) {ns fs : String → Prop} {d g : Drv}, Tied ns fs d g →
    (registerAll bs g).1 = (registerAll bs d).1 ∧
      Tied (fun m => m ∈ bs.map SBind.name ∨ ns m) fs (registerAll bs d).2 (registerAll bs g).2
  | [], ns, fs, d, g, h => ⟨rfl, h.mono (by simp) fun _ => id⟩
  | b :: bs, ns, fs, d, g, h => by
    obtain ⟨h1, h2⟩ := h.register b.name b.srt
    obtain ⟨h3, h4⟩ := tied_registerAll bs h2
    refine ⟨by simp only [registerAll, h1, h3], h4.mono (fun m hm => ?_) fun _ => id⟩
    rcases hm with hm | hm
    · rcases List.mem_cons.mp hm with hm | hm
      exacts [.inr (.inl hm), .inl hm]
    · exact .inr (.inr hm)

theorem tied_declareParams : ∀ (ps : List (String × Srt)) {ns fs : String → Prop} {d g : Drv},
    Tied ns fs d g → (declareParams use ps g).1 = (declareParams use ps d).1 ∧
      Tied (fun m => m ∈ ps.map Prod.fst ∨ ns m) fs (declareParams use ps d).2
        (declareParams use ps g).2
  | [], ns, fs, d, g, h => ⟨rfl, h.mono (by simp) fun _ => id⟩
  | (n, s) :: ps, ns, fs, d, g, h => by
    obtain ⟨h1, h2⟩ := h.declareLocal (use := use) n s
    obtain ⟨h3, h4⟩ := tied_declareParams ps h2
    refine ⟨by simp only [declareParams, h1, h3], h4.mono (fun m hm => ?_) fun _ => id⟩
    rcases hm with hm | hm
    · rcases List.mem_cons.mp hm with hm | hm
      exacts [.inr (.inl hm), .inl hm]
    · exact .inr (.inr hm)

theorem tied_bindLoop : ∀ (l : List (String × Term)) {ns fs : String → Prop} {d g : Drv},
    Tied ns fs d g →
      Tied (fun m => m ∈ l.map Prod.fst ∨ ns m) fs (bindLoop use l d) (bindLoop use l g)
  | [], ns, fs, d, g, h => h.mono (by simp) fun _ => id
  | (n, .fml f) :: l, ns, fs, d, g, h => by
    obtain ⟨h1, h2⟩ := h.declareLocal (use := use) n .bool
    simp only [bindLoop, h1]
    refine (tied_bindLoop l (h2.call _)).mono (fun m hm => ?_) fun _ => id
    rcases hm with hm | hm
    · rcases List.mem_cons.mp hm with hm | hm
      exacts [.inr (.inl hm), .inl hm]
    · exact .inr (.inr hm)
  | (n, .expr e) :: l, ns, fs, d, g, h => by
    obtain ⟨h1, h2⟩ := h.declareLocal (use := use) n .real
    simp only [bindLoop, h1]
    refine (tied_bindLoop l (h2.call _)).mono (fun m hm => ?_) fun _ => id
    rcases hm with hm | hm
    · rcases List.mem_cons.mp hm with hm | hm
      exacts [.inr (.inl hm), .inl hm]
    · exact .inr (.inr hm)

theorem popScope_log {d d' : Drv} (h : d.popScope = .ok d') : d'.log = d.log ∧ d'.next = d.next := by
  unfold Drv.popScope at h
  obtain ⟨x, hx, h⟩ := bindO_ok h
  obtain ⟨y, hy, h⟩ := bindO_ok h
  simp only [Outcome.ok.injEq] at h
  subst h
  exact ⟨rfl, rfl⟩

theorem popScope_ok {d : Drv} {c c' cs f f' fs} (h : Scopes d ⟨c, c' :: cs⟩ ⟨f, f' :: fs⟩) :
    ∃ d', d.popScope = .ok d' := by
  obtain ⟨x, hx⟩ := mrel_pop_ok h.2
  obtain ⟨y, hy⟩ := mrel_pop_ok h.1
  exact ⟨{ d with scope := y, funs := x }, by simp only [Drv.popScope, hx, hy, Outcome.bind_ok]⟩

mutual
theorem tr_sim : ∀ (t : STerm) {ns fs : String → Prop} {d g : Drv} {x : Term} {d' : Drv},
    Tied ns fs d g → Tame t → (∀ n ∈ freeNames t, ns n) → (∀ c ∈ callNames t, fs c.1) →
    tr use t d = .ok (x, d') → ∃ g', tr use t g = .ok (x, g') ∧ Tied ns fs d' g'
  | .tru, ns, fs, d, g, x, d', hT, ht, hn, hc, h => by
    simp only [tr] at h
    simp only [Outcome.ok.injEq, Prod.mk.injEq] at h
    obtain ⟨rfl, rfl⟩ := h
    exact ⟨g, rfl, hT⟩
  | .fls, ns, fs, d, g, x, d', hT, ht, hn, hc, h => by
    simp only [tr] at h
    simp only [Outcome.ok.injEq, Prod.mk.injEq] at h
    obtain ⟨rfl, rfl⟩ := h
    exact ⟨g, rfl, hT⟩
  | .num q, ns, fs, d, g, x, d', hT, ht, hn, hc, h => by
    simp only [tr] at h
    simp only [Outcome.ok.injEq, Prod.mk.injEq] at h
    obtain ⟨rfl, rfl⟩ := h
    exact ⟨g, rfl, hT⟩
  | .dec r, ns, fs, d, g, x, d', hT, ht, hn, hc, h => by
    simp only [tr] at h
    simp only [Outcome.ok.injEq, Prod.mk.injEq] at h
    obtain ⟨rfl, rfl⟩ := h
    exact ⟨g, rfl, hT⟩
  | .sym n, ns, fs, d, g, x, d', hT, ht, hn, hc, h => by
    simp only [tr] at h
    obtain ⟨v, hv, h⟩ := bindO_ok h
    have e : g.scope.at? n = .ok v := by
      rw [← hv]; unfold ScopedMap.at?; rw [hT.names n (hn n (by simp [freeNames]))]
    refine ⟨g, ?_, ?_⟩
    · simp only [tr, e, Outcome.bind_ok]
      split_ifs at h ⊢ <;> simp only [Outcome.ok.injEq, Prod.mk.injEq] at h <;> rw [h.1]
    · split_ifs at h <;> simp only [Outcome.ok.injEq, Prod.mk.injEq] at h <;> rw [← h.2] <;> exact hT
  | .eq a b, ns, fs, d, g, x, d', hT, ht, hn, hc, h => by
    simp only [tr] at h
    obtain ⟨⟨y0, d0⟩, h0, h⟩ := bindO_ok h
    obtain ⟨⟨y1, d1⟩, h1, h⟩ := bindO_ok h
    obtain ⟨z0, k0, h⟩ := bindO_ok h
    simp only [Outcome.ok.injEq, Prod.mk.injEq] at h
    obtain ⟨rfl, rfl⟩ := h
    simp only [freeNames, callNames, List.mem_append] at hn hc
    obtain ⟨g0, e0, t0⟩ := tr_sim a hT ht.1 (fun m hm => hn m (.inl hm)) (fun m hm => hc m (.inl hm)) h0
    obtain ⟨g1, e1, t1⟩ := tr_sim b t0 ht.2 (fun m hm => hn m (.inr hm)) (fun m hm => hc m (.inr hm)) h1
    exact ⟨_, by simp only [tr, e0, e1, k0, Outcome.bind_ok], t1⟩
  | .rel o a b, ns, fs, d, g, x, d', hT, ht, hn, hc, h => by
    simp only [tr] at h
    obtain ⟨⟨y0, d0⟩, h0, h⟩ := bindO_ok h
    obtain ⟨⟨y1, d1⟩, h1, h⟩ := bindO_ok h
    obtain ⟨z0, k0, h⟩ := bindO_ok h
    obtain ⟨z1, k1, h⟩ := bindO_ok h
    simp only [Outcome.ok.injEq, Prod.mk.injEq] at h
    obtain ⟨rfl, rfl⟩ := h
    simp only [freeNames, callNames, List.mem_append] at hn hc
    obtain ⟨g0, e0, t0⟩ := tr_sim a hT ht.1 (fun m hm => hn m (.inl hm)) (fun m hm => hc m (.inl hm)) h0
    obtain ⟨g1, e1, t1⟩ := tr_sim b t0 ht.2 (fun m hm => hn m (.inr hm)) (fun m hm => hc m (.inr hm)) h1
    exact ⟨_, by simp only [tr, e0, e1, k0, k1, Outcome.bind_ok], t1⟩
  | .and us, ns, fs, d, g, x, d', hT, ht, hn, hc, h => by
    simp only [tr] at h
    obtain ⟨⟨y0, d0⟩, h0, h⟩ := bindO_ok h
    obtain ⟨z0, k0, h⟩ := bindO_ok h
    simp only [Outcome.ok.injEq, Prod.mk.injEq] at h
    obtain ⟨rfl, rfl⟩ := h
    simp only [freeNames, callNames, List.mem_append] at hn hc
    obtain ⟨g0, e0, t0⟩ := trs_sim us hT ht (fun m hm => hn m hm) (fun m hm => hc m hm) h0
    exact ⟨_, by simp only [tr, e0, k0, Outcome.bind_ok], t0⟩
  | .or us, ns, fs, d, g, x, d', hT, ht, hn, hc, h => by
    simp only [tr] at h
    obtain ⟨⟨y0, d0⟩, h0, h⟩ := bindO_ok h
    obtain ⟨z0, k0, h⟩ := bindO_ok h
    simp only [Outcome.ok.injEq, Prod.mk.injEq] at h
    obtain ⟨rfl, rfl⟩ := h
    simp only [freeNames, callNames, List.mem_append] at hn hc
    obtain ⟨g0, e0, t0⟩ := trs_sim us hT ht (fun m hm => hn m hm) (fun m hm => hc m hm) h0
    exact ⟨_, by simp only [tr, e0, k0, Outcome.bind_ok], t0⟩
  | .xor us, ns, fs, d, g, x, d', hT, ht, hn, hc, h => by
    simp only [tr] at h
    obtain ⟨⟨y0, d0⟩, h0, h⟩ := bindO_ok h
    obtain ⟨z0, k0, h⟩ := bindO_ok h
    simp only [Outcome.ok.injEq, Prod.mk.injEq] at h
    obtain ⟨rfl, rfl⟩ := h
    simp only [freeNames, callNames, List.mem_append] at hn hc
    obtain ⟨g0, e0, t0⟩ := trs_sim us hT ht (fun m hm => hn m hm) (fun m hm => hc m hm) h0
    exact ⟨_, by simp only [tr, e0, k0, Outcome.bind_ok], t0⟩
  | .not t, ns, fs, d, g, x, d', hT, ht, hn, hc, h => by
    simp only [tr] at h
    obtain ⟨⟨y0, d0⟩, h0, h⟩ := bindO_ok h
    obtain ⟨z0, k0, h⟩ := bindO_ok h
    simp only [Outcome.ok.injEq, Prod.mk.injEq] at h
    obtain ⟨rfl, rfl⟩ := h
    simp only [freeNames, callNames, List.mem_append] at hn hc
    obtain ⟨g0, e0, t0⟩ := tr_sim t hT ht (fun m hm => hn m hm) (fun m hm => hc m hm) h0
    exact ⟨_, by simp only [tr, e0, k0, Outcome.bind_ok], t0⟩
  | .imp a b, ns, fs, d, g, x, d', hT, ht, hn, hc, h => by
    simp only [tr] at h
    obtain ⟨⟨y0, d0⟩, h0, h⟩ := bindO_ok h
    obtain ⟨⟨y1, d1⟩, h1, h⟩ := bindO_ok h
    obtain ⟨z0, k0, h⟩ := bindO_ok h
    obtain ⟨z1, k1, h⟩ := bindO_ok h
    simp only [Outcome.ok.injEq, Prod.mk.injEq] at h
    obtain ⟨rfl, rfl⟩ := h
    simp only [freeNames, callNames, List.mem_append] at hn hc
    obtain ⟨g0, e0, t0⟩ := tr_sim a hT ht.1 (fun m hm => hn m (.inl hm)) (fun m hm => hc m (.inl hm)) h0
    obtain ⟨g1, e1, t1⟩ := tr_sim b t0 ht.2 (fun m hm => hn m (.inr hm)) (fun m hm => hc m (.inr hm)) h1
    exact ⟨_, by simp only [tr, e0, e1, k0, k1, Outcome.bind_ok], t1⟩
  | .ite c a b, ns, fs, d, g, x, d', hT, ht, hn, hc, h => by
    simp only [tr] at h
    obtain ⟨⟨y0, d0⟩, h0, h⟩ := bindO_ok h
    obtain ⟨⟨y1, d1⟩, h1, h⟩ := bindO_ok h
    obtain ⟨⟨y2, d2⟩, h2, h⟩ := bindO_ok h
    obtain ⟨z0, k0, h⟩ := bindO_ok h
    obtain ⟨z1, k1, h⟩ := bindO_ok h
    simp only [Outcome.ok.injEq, Prod.mk.injEq] at h
    obtain ⟨rfl, rfl⟩ := h
    simp only [freeNames, callNames, List.mem_append] at hn hc
    obtain ⟨g0, e0, t0⟩ := tr_sim c hT ht.1 (fun m hm => hn m (.inl (.inl hm))) (fun m hm => hc m (.inl (.inl hm))) h0
    obtain ⟨g1, e1, t1⟩ := tr_sim a t0 ht.2.1 (fun m hm => hn m (.inl (.inr hm))) (fun m hm => hc m (.inl (.inr hm))) h1
    obtain ⟨g2, e2, t2⟩ := tr_sim b t1 ht.2.2 (fun m hm => hn m (.inr hm)) (fun m hm => hc m (.inr hm)) h2
    exact ⟨_, by simp only [tr, e0, e1, e2, k0, k1, Outcome.bind_ok], t2⟩
  | .all bs body, ns, fs, d, g, x, d', hT, ht, hn, hc, h => by
    simp only [tr] at h
    have h' := h
    obtain ⟨dom, hd, h⟩ := bindO_ok h
    obtain ⟨⟨y, d3⟩, h3, h⟩ := bindO_ok h
    obtain ⟨d4, h4, h⟩ := bindO_ok h
    obtain ⟨f, hf, h⟩ := bindO_ok h
    simp only [Outcome.ok.injEq, Prod.mk.injEq] at h
    obtain ⟨rfl, rfl⟩ := h
    obtain ⟨r1, r2⟩ := tied_registerAll bs hT.push
    obtain ⟨g3, e3, t3⟩ := tr_sim body r2 ht.2.2 (fun m hm => by
      by_cases hb : m ∈ bs.map SBind.name
      · exact .inl hb
      · exact .inr (hn m (by simp only [freeNames, List.mem_filter, decide_eq_true_eq]; exact ⟨hm, hb⟩)))
      (fun m hm => hc m (by simpa [callNames] using hm)) h3
    obtain ⟨us, uf, s0⟩ := hT.right
    obtain ⟨c', s1⟩ := (adds_registerAll bs g.pushScope).scope _ _ _ (scopes_push s0)
    obtain ⟨g4, e4⟩ := popScope_ok ((tr_fits body s1 e3).same _ _ s1)
    have hg : tr use (.all bs body) g = .ok (.fml (mkForall (registerAll bs d.pushScope).1 dom f), g4) := by
      simp only [tr, r1, hd, e3, e4, hf, Outcome.bind_ok]
    obtain ⟨ts, tf, s2⟩ := hT.left
    refine ⟨g4, hg, hT.of_maps ?_ ?_ (tr_fits (.all bs body) (x := _) s2 (by simp only [tr]; exact h')).same
      (tr_fits (.all bs body) s0 hg).same⟩
    · rw [(popScope_log e4).1, (popScope_log h4).1, t3.log]
    · rw [(popScope_log e4).2, (popScope_log h4).2, t3.next]
  | .let_ xs us body, ns, fs, d, g, x, d', hT, ht, hn, hc, h => by
    simp only [tr] at h
    have h' := h
    obtain ⟨⟨ys, d2⟩, h2, h⟩ := bindO_ok h
    obtain ⟨⟨y, d3⟩, h3, h⟩ := bindO_ok h
    obtain ⟨d4, h4, h⟩ := bindO_ok h
    simp only [Outcome.ok.injEq, Prod.mk.injEq] at h
    obtain ⟨rfl, rfl⟩ := h
    simp only [freeNames, callNames, List.mem_append, List.mem_filter, decide_eq_true_eq] at hn hc
    obtain ⟨g2, e2, t2⟩ := trs_sim us hT.push ht.2.1 (fun m hm => hn m (.inl hm)) (fun m hm => hc m (.inl hm)) h2
    have hlen := trs_length us h2
    have r2 := tied_bindLoop (use := use) (xs.zip ys).reverse t2
    have hz : ∀ m, m ∈ xs → m ∈ (xs.zip ys).reverse.map Prod.fst := fun m hm => by
      rw [List.map_reverse, List.mem_reverse, List.map_fst_zip (by rw [hlen, ht.1])]
      exact hm
    obtain ⟨g3, e3, t3⟩ := tr_sim body r2 ht.2.2 (fun m hm => by
      by_cases hb : m ∈ xs
      · exact .inl (hz m hb)
      · exact .inr (hn m (.inr ⟨hm, hb⟩)))
      (fun m hm => hc m (.inr hm)) h3
    obtain ⟨vs, uf, s0⟩ := hT.right
    have s1 := (trs_fits us (scopes_push s0) e2).same _ _ (scopes_push s0)
    obtain ⟨c', s3⟩ := (adds_bindLoop (use := use) (xs.zip ys).reverse g2).scope _ _ _ s1
    obtain ⟨g4, e4⟩ := popScope_ok ((tr_fits body s3 e3).same _ _ s3)
    have hg : tr use (.let_ xs us body) g = .ok (y, g4) := by
      simp only [tr, e2, e3, e4, Outcome.bind_ok]
    obtain ⟨ts, tf, s2⟩ := hT.left
    refine ⟨g4, hg, hT.of_maps ?_ ?_ (tr_fits (.let_ xs us body) s2 (by simp only [tr]; exact h')).same
      (tr_fits (.let_ xs us body) s0 hg).same⟩
    · rw [(popScope_log e4).1, (popScope_log h4).1, t3.log]
    · rw [(popScope_log e4).2, (popScope_log h4).2, t3.next]
  | .add t us, ns, fs, d, g, x, d', hT, ht, hn, hc, h => by
    simp only [tr] at h
    obtain ⟨⟨y0, d0⟩, h0, h⟩ := bindO_ok h
    obtain ⟨⟨y1, d1⟩, h1, h⟩ := bindO_ok h
    obtain ⟨z0, k0, h⟩ := bindO_ok h
    simp only [Outcome.ok.injEq, Prod.mk.injEq] at h
    obtain ⟨rfl, rfl⟩ := h
    simp only [freeNames, callNames, List.mem_append] at hn hc
    obtain ⟨g0, e0, t0⟩ := tr_sim t hT ht.1 (fun m hm => hn m (.inl hm)) (fun m hm => hc m (.inl hm)) h0
    obtain ⟨g1, e1, t1⟩ := trs_sim us t0 ht.2 (fun m hm => hn m (.inr hm)) (fun m hm => hc m (.inr hm)) h1
    exact ⟨_, by simp only [tr, e0, e1, k0, Outcome.bind_ok], t1⟩
  | .neg t, ns, fs, d, g, x, d', hT, ht, hn, hc, h => by
    simp only [tr] at h
    obtain ⟨⟨y0, d0⟩, h0, h⟩ := bindO_ok h
    obtain ⟨z0, k0, h⟩ := bindO_ok h
    simp only [Outcome.ok.injEq, Prod.mk.injEq] at h
    obtain ⟨rfl, rfl⟩ := h
    simp only [freeNames, callNames, List.mem_append] at hn hc
    obtain ⟨g0, e0, t0⟩ := tr_sim t hT ht (fun m hm => hn m hm) (fun m hm => hc m hm) h0
    exact ⟨_, by simp only [tr, e0, k0, Outcome.bind_ok], t0⟩
  | .sub t us, ns, fs, d, g, x, d', hT, ht, hn, hc, h => by
    simp only [tr] at h
    obtain ⟨⟨y0, d0⟩, h0, h⟩ := bindO_ok h
    obtain ⟨⟨y1, d1⟩, h1, h⟩ := bindO_ok h
    obtain ⟨z0, k0, h⟩ := bindO_ok h
    simp only [Outcome.ok.injEq, Prod.mk.injEq] at h
    obtain ⟨rfl, rfl⟩ := h
    simp only [freeNames, callNames, List.mem_append] at hn hc
    obtain ⟨g0, e0, t0⟩ := tr_sim t hT ht.1 (fun m hm => hn m (.inl hm)) (fun m hm => hc m (.inl hm)) h0
    obtain ⟨g1, e1, t1⟩ := trs_sim us t0 ht.2 (fun m hm => hn m (.inr hm)) (fun m hm => hc m (.inr hm)) h1
    exact ⟨_, by simp only [tr, e0, e1, k0, Outcome.bind_ok], t1⟩
  | .mul t us, ns, fs, d, g, x, d', hT, ht, hn, hc, h => by
    simp only [tr] at h
    obtain ⟨⟨y0, d0⟩, h0, h⟩ := bindO_ok h
    obtain ⟨⟨y1, d1⟩, h1, h⟩ := bindO_ok h
    obtain ⟨z0, k0, h⟩ := bindO_ok h
    simp only [Outcome.ok.injEq, Prod.mk.injEq] at h
    obtain ⟨rfl, rfl⟩ := h
    simp only [freeNames, callNames, List.mem_append] at hn hc
    obtain ⟨g0, e0, t0⟩ := tr_sim t hT ht.1 (fun m hm => hn m (.inl hm)) (fun m hm => hc m (.inl hm)) h0
    obtain ⟨g1, e1, t1⟩ := trs_sim us t0 ht.2 (fun m hm => hn m (.inr hm)) (fun m hm => hc m (.inr hm)) h1
    exact ⟨_, by simp only [tr, e0, e1, k0, Outcome.bind_ok], t1⟩
  | .div t us, ns, fs, d, g, x, d', hT, ht, hn, hc, h => by
    simp only [tr] at h
    obtain ⟨⟨y0, d0⟩, h0, h⟩ := bindO_ok h
    obtain ⟨⟨y1, d1⟩, h1, h⟩ := bindO_ok h
    obtain ⟨z0, k0, h⟩ := bindO_ok h
    simp only [Outcome.ok.injEq, Prod.mk.injEq] at h
    obtain ⟨rfl, rfl⟩ := h
    simp only [freeNames, callNames, List.mem_append] at hn hc
    obtain ⟨g0, e0, t0⟩ := tr_sim t hT ht.1 (fun m hm => hn m (.inl hm)) (fun m hm => hc m (.inl hm)) h0
    obtain ⟨g1, e1, t1⟩ := trs_sim us t0 ht.2 (fun m hm => hn m (.inr hm)) (fun m hm => hc m (.inr hm)) h1
    exact ⟨_, by simp only [tr, e0, e1, k0, Outcome.bind_ok], t1⟩
  | .fn1 o t, ns, fs, d, g, x, d', hT, ht, hn, hc, h => by
    simp only [tr] at h
    obtain ⟨⟨y0, d0⟩, h0, h⟩ := bindO_ok h
    obtain ⟨z0, k0, h⟩ := bindO_ok h
    simp only [Outcome.ok.injEq, Prod.mk.injEq] at h
    obtain ⟨rfl, rfl⟩ := h
    simp only [freeNames, callNames, List.mem_append] at hn hc
    obtain ⟨g0, e0, t0⟩ := tr_sim t hT ht (fun m hm => hn m hm) (fun m hm => hc m hm) h0
    exact ⟨_, by simp only [tr, e0, k0, Outcome.bind_ok], t0⟩
  | .fn2 o a b, ns, fs, d, g, x, d', hT, ht, hn, hc, h => by
    simp only [tr] at h
    obtain ⟨⟨y0, d0⟩, h0, h⟩ := bindO_ok h
    obtain ⟨⟨y1, d1⟩, h1, h⟩ := bindO_ok h
    obtain ⟨z0, k0, h⟩ := bindO_ok h
    obtain ⟨z1, k1, h⟩ := bindO_ok h
    simp only [Outcome.ok.injEq, Prod.mk.injEq] at h
    obtain ⟨rfl, rfl⟩ := h
    simp only [freeNames, callNames, List.mem_append] at hn hc
    obtain ⟨g0, e0, t0⟩ := tr_sim a hT ht.1 (fun m hm => hn m (.inl hm)) (fun m hm => hc m (.inl hm)) h0
    obtain ⟨g1, e1, t1⟩ := tr_sim b t0 ht.2 (fun m hm => hn m (.inr hm)) (fun m hm => hc m (.inr hm)) h1
    exact ⟨_, by simp only [tr, e0, e1, k0, k1, Outcome.bind_ok], t1⟩
  | .call n us, ns, fs, d, g, x, d', hT, ht, hn, hc, h => by
    simp only [tr] at h
    obtain ⟨⟨xs, d1⟩, h1, h⟩ := bindO_ok h
    simp only [freeNames, callNames, List.mem_cons] at hn hc
    obtain ⟨g1, e1, t1⟩ := trs_sim us hT ht hn (fun m hm => hc m (.inr hm)) h1
    have e := t1.funs n (hc (n, us.length) (.inl rfl))
    cases hfd : d1.funs.map n with
    | none => simp [hfd] at h
    | some fd =>
      simp only [hfd] at h
      obtain ⟨r, hr, h⟩ := bindO_ok h
      simp only [Outcome.ok.injEq, Prod.mk.injEq] at h
      obtain ⟨rfl, rfl⟩ := h
      exact ⟨g1, by simp only [tr, e1, Outcome.bind_ok, e, hfd, hr], t1⟩
theorem trs_sim : ∀ (us : List STerm) {ns fs : String → Prop} {d g : Drv} {xs : List Term} {d' : Drv},
    Tied ns fs d g → Tames us → (∀ n ∈ freeNamess us, ns n) → (∀ c ∈ callNamess us, fs c.1) →
    trs use us d = .ok (xs, d') → ∃ g', trs use us g = .ok (xs, g') ∧ Tied ns fs d' g'
  | [], ns, fs, d, g, xs, d', hT, ht, hn, hc, h => by
    simp only [trs, Outcome.ok.injEq, Prod.mk.injEq] at h
    obtain ⟨rfl, rfl⟩ := h
    exact ⟨g, rfl, hT⟩
  | t :: us, ns, fs, d, g, xs, d', hT, ht, hn, hc, h => by
    simp only [trs] at h
    obtain ⟨⟨y, d1⟩, h1, h⟩ := bindO_ok h
    obtain ⟨⟨ys, d2⟩, h2, h⟩ := bindO_ok h
    simp only [Outcome.ok.injEq, Prod.mk.injEq] at h
    obtain ⟨rfl, rfl⟩ := h
    simp only [freeNamess, callNamess, List.mem_append] at hn hc
    obtain ⟨g1, e1, t1⟩ := tr_sim t hT ht.1 (fun m hm => hn m (.inl hm)) (fun m hm => hc m (.inl hm)) h1
    obtain ⟨g2, e2, t2⟩ := trs_sim us t1 ht.2 (fun m hm => hn m (.inr hm)) (fun m hm => hc m (.inr hm)) h2
    exact ⟨g2, by simp only [trs, e1, e2, Outcome.bind_ok], t2⟩
end

end Verif.Proof.Smt2
