import Verif.Proof.Smt2Inv

/-! # Names in scripts -/

namespace Verif.Proof.Smt2
open Verif Verif.Model Verif.Model.Smt2 Verif.Spec Verif.Spec.Smt2 Verif.Proof

variable {use : List Cmd → Nat}

/-- The scopes are in order. -/
def Scopes (d : Drv) (ts : Snap (String → Option Variable)) (tf : Snap (String → Option FunDef)) : Prop :=
  MRel d.scope ts ∧ MRel d.funs tf

/-- The result `d'` has the same scopes, and everything used is in them. -/
structure Fits (d d' : Drv) (ns : List String) (fs : List (String × Nat)) : Prop where
  same : ∀ ts tf, Scopes d ts tf → Scopes d' ts tf
  names : ∀ n ∈ ns, d.scope.map n ≠ none
  calls : ∀ c ∈ fs, ∃ fd, d.funs.map c.1 = some fd ∧ fd.params.length = c.2

/-- Names were added. -/
structure Adds (P : String → Prop) (d d' : Drv) : Prop where
  scope : ∀ c r tf, Scopes d ⟨c, r⟩ tf → ∃ c', Scopes d' ⟨c', r⟩ tf
  dom : ∀ n, d'.scope.map n ≠ none → P n ∨ d.scope.map n ≠ none
  fmap : d'.funs = d.funs

theorem adds_one {d d' : Drv} {n : String} {v : Variable} (hs : d'.scope = d.scope.insert n v)
    (hf : d'.funs = d.funs) : Adds (· = n) d d' := by
  refine ⟨fun c r tf h => ⟨_, by rw [hs]; exact mrel_insert h.1 n v, by rw [hf]; exact h.2⟩,
    fun m hm => ?_, hf⟩
  rw [hs, insert_map] at hm
  simp only [ScopedMap.upd] at hm
  split_ifs at hm with h
  exacts [.inl h, .inr hm]

theorem Adds.trans {P Q R : String → Prop} {d d1 d2 : Drv} (h : Adds P d d1) (k : Adds Q d1 d2)
    (hR : ∀ n, P n ∨ Q n → R n) : Adds R d d2 := by
  refine ⟨fun c r tf hs => ?_, fun n hn => ?_, k.fmap.trans h.fmap⟩
  · obtain ⟨c', h'⟩ := h.scope c r tf hs
    exact k.scope c' r tf h'
  · rcases k.dom n hn with h1 | h1
    · exact .inl (hR n (.inr h1))
    · exact (h.dom n h1).imp (fun h => hR n (.inl h)) id

theorem adds_refl {P} {d d' : Drv} (hs : d'.scope = d.scope) (hf : d'.funs = d.funs) : Adds P d d' :=
  ⟨fun c _ _ h => ⟨c, by rw [Scopes, hs, hf]; exact h⟩, fun n hn => .inr (by rw [← hs]; exact hn), hf⟩

theorem adds_registerAll : ∀ (bs : List SBind) (d : Drv),
    Adds (· ∈ bs.map SBind.name) d (registerAll bs d).2
  | [], d => adds_refl rfl rfl
  | b :: bs, d => by
    have h1 : Adds (· = b.name) d (d.register b.name b.srt).2 := adds_one rfl rfl
    exact h1.trans (adds_registerAll bs _) (by simp)

theorem adds_declareParams : ∀ (ps : List (String × Srt)) (d : Drv),
    Adds (· ∈ ps.map Prod.fst) d (declareParams use ps d).2
  | [], d => adds_refl rfl rfl
  | (n, s) :: ps, d => by
    have h1 : Adds (· = n) d (d.declareLocal use n s).2 := adds_one rfl rfl
    exact h1.trans (adds_declareParams ps _) (by simp)

theorem adds_bindLoop : ∀ (l : List (String × Term)) (d : Drv),
    Adds (· ∈ l.map Prod.fst) d (bindLoop use l d)
  | [], d => adds_refl rfl rfl
  | (n, .expr e) :: l, d => by
    have h1 : Adds (· = n) d ((d.declareLocal use n .real).2.call use (.assert (mkRel .eq
      (.var (d.declareLocal use n .real).1) e))) := adds_one rfl rfl
    exact h1.trans (adds_bindLoop l _) (by simp)
  | (n, .fml f) :: l, d => by
    have h1 : Adds (· = n) d ((d.declareLocal use n .bool).2.call use (.assert
      (orF (andF (.bvar (d.declareLocal use n .bool).1) f)
        (andF (notF (.bvar (d.declareLocal use n .bool).1)) (notF f))))) := adds_one rfl rfl
    exact h1.trans (adds_bindLoop l _) (by simp)

theorem scopes_push {d : Drv} {ts tf} (h : Scopes d ts tf) :
    Scopes d.pushScope ⟨ts.cur, ts.cur :: ts.saved⟩ ⟨tf.cur, tf.cur :: tf.saved⟩ :=
  ⟨mrel_push h.1, mrel_push h.2⟩

theorem scopes_pop {d d' : Drv} {c c' cs f f' fs} (h : Scopes d ⟨c, c' :: cs⟩ ⟨f, f' :: fs⟩)
    (hp : d.popScope = .ok d') : Scopes d' ⟨c', cs⟩ ⟨f', fs⟩ := by
  unfold Drv.popScope at hp
  obtain ⟨x, hx, hp⟩ := bindO_ok hp
  obtain ⟨y, hy, hp⟩ := bindO_ok hp
  simp only [Outcome.ok.injEq] at hp
  subst hp
  exact ⟨mrel_pop h.1 hy, mrel_pop h.2 hx⟩

section
variable {d d1 d2 d3 : Drv} {ns ns1 ns2 : List String} {fs fs1 fs2 : List (String × Nat)}

theorem Fits.maps {ts tf} (h : Fits d d1 ns fs) (hs : Scopes d ts tf) :
    d1.scope.map = d.scope.map ∧ d1.funs.map = d.funs.map := by
  have := h.same ts tf hs
  exact ⟨by rw [this.1.1, hs.1.1], by rw [this.2.1, hs.2.1]⟩

theorem Fits.trans {ts tf} (hs : Scopes d ts tf) (h : Fits d d1 ns1 fs1)
    (k : Fits d1 d2 ns2 fs2) : Fits d d2 (ns1 ++ ns2) (fs1 ++ fs2) := by
  obtain ⟨m1, m2⟩ := h.maps hs
  refine ⟨fun ts tf hs => k.same ts tf (h.same ts tf hs), fun n hn => ?_, fun c hc => ?_⟩
  · rcases List.mem_append.mp hn with hn | hn
    · exact h.names n hn
    · rw [← m1]; exact k.names n hn
  · rcases List.mem_append.mp hc with hc | hc
    · exact h.calls c hc
    · rw [← m2]; exact k.calls c hc

theorem fits_nil : Fits d d [] [] := ⟨fun _ _ h => h, by simp, by simp⟩

/-- A scope around. -/
theorem Fits.around {P : String → Prop} {ts tf} (hs : Scopes d ts tf) (ha : Adds P d.pushScope d1)
    (h : Fits d1 d2 ns fs) (hp : d2.popScope = .ok d3) {ns'} (hn : ∀ n ∈ ns', n ∈ ns ∧ ¬ P n) :
    Fits d d3 ns' fs := by
  refine ⟨fun ts tf hs => ?_, fun n hn' => ?_, fun c hc => ?_⟩
  · obtain ⟨c', k⟩ := ha.scope _ _ _ (scopes_push hs)
    exact scopes_pop (h.same _ _ k) hp
  · obtain ⟨a, b⟩ := hn n hn'
    rcases ha.dom n (h.names n a) with k | k
    · exact absurd k b
    · exact k
  · have := h.calls c hc
    rw [ha.fmap] at this
    exact this

end

mutual
theorem tr_fits : ∀ (t : STerm) {d : Drv} {x : Term} {d' : Drv} {ts tf}, Scopes d ts tf →
    tr use t d = .ok (x, d') → Fits d d' (freeNames t) (callNames t)
  | .tru, d, x, d', ts, tf, hs, h => by
    simp only [tr, Outcome.ok.injEq, Prod.mk.injEq] at h
    rw [← h.2]; exact fits_nil
  | .fls, d, x, d', ts, tf, hs, h => by
    simp only [tr, Outcome.ok.injEq, Prod.mk.injEq] at h
    rw [← h.2]; exact fits_nil
  | .num _, d, x, d', ts, tf, hs, h => by
    simp only [tr, Outcome.ok.injEq, Prod.mk.injEq] at h
    rw [← h.2]; exact fits_nil
  | .dec _, d, x, d', ts, tf, hs, h => by
    simp only [tr, Outcome.ok.injEq, Prod.mk.injEq] at h
    rw [← h.2]; exact fits_nil
  | .sym n, d, x, d', ts, tf, hs, h => by
    simp only [tr] at h
    obtain ⟨v, hv, h⟩ := bindO_ok h
    have hv' : d.scope.map n = some v := by
      unfold ScopedMap.at? at hv
      split at hv <;> simp_all
    have : d' = d := by
      split_ifs at h <;> simp only [Outcome.ok.injEq, Prod.mk.injEq] at h <;> exact h.2.symm
    subst this
    exact ⟨fun _ _ h => h, by simp [freeNames, hv'], by simp [callNames]⟩
  | .eq a b, d, x, d', ts, tf, hs, h => by
    simp only [tr] at h
    obtain ⟨⟨y, d1⟩, h1, h⟩ := bindO_ok h
    obtain ⟨⟨z, d2⟩, h2, h⟩ := bindO_ok h
    obtain ⟨t, ht, h⟩ := bindO_ok h
    simp only [Outcome.ok.injEq, Prod.mk.injEq] at h
    rw [← h.2]
    have k1 := tr_fits a hs h1
    exact k1.trans hs (tr_fits b (k1.same _ _ hs) h2)
  | .rel o a b, d, x, d', ts, tf, hs, h => by
    simp only [tr] at h
    obtain ⟨⟨y, d1⟩, h1, h⟩ := bindO_ok h
    obtain ⟨⟨z, d2⟩, h2, h⟩ := bindO_ok h
    obtain ⟨e1, ht1, h⟩ := bindO_ok h
    obtain ⟨e2, ht2, h⟩ := bindO_ok h
    simp only [Outcome.ok.injEq, Prod.mk.injEq] at h
    rw [← h.2]
    have k1 := tr_fits a hs h1
    exact k1.trans hs (tr_fits b (k1.same _ _ hs) h2)
  | .and us, d, x, d', ts, tf, hs, h => by
    simp only [tr] at h
    obtain ⟨⟨xs, d1⟩, h1, h⟩ := bindO_ok h
    obtain ⟨f, hf, h⟩ := bindO_ok h
    simp only [Outcome.ok.injEq, Prod.mk.injEq] at h
    rw [← h.2]
    exact trs_fits us hs h1
  | .or us, d, x, d', ts, tf, hs, h => by
    simp only [tr] at h
    obtain ⟨⟨xs, d1⟩, h1, h⟩ := bindO_ok h
    obtain ⟨f, hf, h⟩ := bindO_ok h
    simp only [Outcome.ok.injEq, Prod.mk.injEq] at h
    rw [← h.2]
    exact trs_fits us hs h1
  | .xor us, d, x, d', ts, tf, hs, h => by
    simp only [tr] at h
    obtain ⟨⟨xs, d1⟩, h1, h⟩ := bindO_ok h
    obtain ⟨f, hf, h⟩ := bindO_ok h
    simp only [Outcome.ok.injEq, Prod.mk.injEq] at h
    rw [← h.2]
    exact trs_fits us hs h1
  | .not t, d, x, d', ts, tf, hs, h => by
    simp only [tr] at h
    obtain ⟨⟨y, d1⟩, h1, h⟩ := bindO_ok h
    obtain ⟨f, hf, h⟩ := bindO_ok h
    simp only [Outcome.ok.injEq, Prod.mk.injEq] at h
    rw [← h.2]
    exact tr_fits t hs h1
  | .imp a b, d, x, d', ts, tf, hs, h => by
    simp only [tr] at h
    obtain ⟨⟨y, d1⟩, h1, h⟩ := bindO_ok h
    obtain ⟨⟨z, d2⟩, h2, h⟩ := bindO_ok h
    obtain ⟨e1, ht1, h⟩ := bindO_ok h
    obtain ⟨e2, ht2, h⟩ := bindO_ok h
    simp only [Outcome.ok.injEq, Prod.mk.injEq] at h
    rw [← h.2]
    have k1 := tr_fits a hs h1
    exact k1.trans hs (tr_fits b (k1.same _ _ hs) h2)
  | .ite c a b, d, x, d', ts, tf, hs, h => by
    simp only [tr] at h
    obtain ⟨⟨w, d0⟩, h0, h⟩ := bindO_ok h
    obtain ⟨⟨y, d1⟩, h1, h⟩ := bindO_ok h
    obtain ⟨⟨z, d2⟩, h2, h⟩ := bindO_ok h
    obtain ⟨f, hf, h⟩ := bindO_ok h
    obtain ⟨t, ht, h⟩ := bindO_ok h
    simp only [Outcome.ok.injEq, Prod.mk.injEq] at h
    rw [← h.2]
    have k0 := tr_fits c hs h0
    have s0 := k0.same _ _ hs
    have k1 := tr_fits a s0 h1
    have k2 := tr_fits b (k1.same _ _ s0) h2
    exact (k0.trans hs k1).trans hs k2
  | .all bs body, d, x, d', ts, tf, hs, h => by
    simp only [tr] at h
    obtain ⟨dom, hd, h⟩ := bindO_ok h
    obtain ⟨⟨y, d3⟩, h3, h⟩ := bindO_ok h
    obtain ⟨d4, h4, h⟩ := bindO_ok h
    obtain ⟨f, hf, h⟩ := bindO_ok h
    simp only [Outcome.ok.injEq, Prod.mk.injEq] at h
    rw [← h.2]
    have ha := adds_registerAll bs d.pushScope
    obtain ⟨c', sc⟩ := ha.scope _ _ _ (scopes_push hs)
    exact Fits.around hs ha (tr_fits body sc h3) h4 (by simp [freeNames])
  | .let_ ns us body, d, x, d', ts, tf, hs, h => by
    simp only [tr] at h
    obtain ⟨⟨xs, d2⟩, h2, h⟩ := bindO_ok h
    obtain ⟨⟨y, d4⟩, h4, h⟩ := bindO_ok h
    obtain ⟨d5, h5, h⟩ := bindO_ok h
    simp only [Outcome.ok.injEq, Prod.mk.injEq] at h
    rw [← h.2]
    have sp := scopes_push hs
    have k1 := trs_fits us sp h2
    have s2 := k1.same _ _ sp
    have ha := adds_bindLoop (use := use) (ns.zip xs).reverse d2
    obtain ⟨c', sc⟩ := ha.scope _ _ _ s2
    have k2 := tr_fits body sc h4
    obtain ⟨m1, m2⟩ := k1.maps sp
    refine ⟨fun ts tf hs => ?_, fun n hn => ?_, fun c hc => ?_⟩
    · obtain ⟨c', k⟩ := ha.scope _ _ _ (k1.same _ _ (scopes_push hs))
      exact scopes_pop (k2.same _ _ k) h5
    · simp only [freeNames, List.mem_append, List.mem_filter, decide_eq_true_eq] at hn
      rcases hn with hn | ⟨hn, hn'⟩
      · exact k1.names n hn
      · rcases ha.dom n (k2.names n hn) with k | k
        · exfalso
          rw [List.map_reverse, List.mem_reverse] at k
          obtain ⟨q, hq, rfl⟩ := List.mem_map.mp k
          exact hn' (List.of_mem_zip hq).1
        · simp only [m1] at k
          exact k
    · simp only [callNames, List.mem_append] at hc
      rcases hc with hc | hc
      · exact k1.calls c hc
      · have := k2.calls c hc
        rw [ha.fmap, m2] at this
        exact this
  | .add t us, d, x, d', ts, tf, hs, h => by
    simp only [tr] at h
    obtain ⟨⟨y, d1⟩, h1, h⟩ := bindO_ok h
    obtain ⟨⟨xs, d2⟩, h2, h⟩ := bindO_ok h
    obtain ⟨r, hr, h⟩ := bindO_ok h
    simp only [Outcome.ok.injEq, Prod.mk.injEq] at h
    rw [← h.2]
    have k1 := tr_fits t hs h1
    exact k1.trans hs (trs_fits us (k1.same _ _ hs) h2)
  | .neg t, d, x, d', ts, tf, hs, h => by
    simp only [tr] at h
    obtain ⟨⟨y, d1⟩, h1, h⟩ := bindO_ok h
    obtain ⟨f, hf, h⟩ := bindO_ok h
    simp only [Outcome.ok.injEq, Prod.mk.injEq] at h
    rw [← h.2]
    exact tr_fits t hs h1
  | .sub t us, d, x, d', ts, tf, hs, h => by
    simp only [tr] at h
    obtain ⟨⟨y, d1⟩, h1, h⟩ := bindO_ok h
    obtain ⟨⟨xs, d2⟩, h2, h⟩ := bindO_ok h
    obtain ⟨r, hr, h⟩ := bindO_ok h
    simp only [Outcome.ok.injEq, Prod.mk.injEq] at h
    rw [← h.2]
    have k1 := tr_fits t hs h1
    exact k1.trans hs (trs_fits us (k1.same _ _ hs) h2)
  | .mul t us, d, x, d', ts, tf, hs, h => by
    simp only [tr] at h
    obtain ⟨⟨y, d1⟩, h1, h⟩ := bindO_ok h
    obtain ⟨⟨xs, d2⟩, h2, h⟩ := bindO_ok h
    obtain ⟨r, hr, h⟩ := bindO_ok h
    simp only [Outcome.ok.injEq, Prod.mk.injEq] at h
    rw [← h.2]
    have k1 := tr_fits t hs h1
    exact k1.trans hs (trs_fits us (k1.same _ _ hs) h2)
  | .div t us, d, x, d', ts, tf, hs, h => by
    simp only [tr] at h
    obtain ⟨⟨y, d1⟩, h1, h⟩ := bindO_ok h
    obtain ⟨⟨xs, d2⟩, h2, h⟩ := bindO_ok h
    obtain ⟨r, hr, h⟩ := bindO_ok h
    simp only [Outcome.ok.injEq, Prod.mk.injEq] at h
    rw [← h.2]
    have k1 := tr_fits t hs h1
    exact k1.trans hs (trs_fits us (k1.same _ _ hs) h2)
  | .fn1 f t, d, x, d', ts, tf, hs, h => by
    simp only [tr] at h
    obtain ⟨⟨y, d1⟩, h1, h⟩ := bindO_ok h
    obtain ⟨f, hf, h⟩ := bindO_ok h
    simp only [Outcome.ok.injEq, Prod.mk.injEq] at h
    rw [← h.2]
    exact tr_fits t hs h1
  | .fn2 f a b, d, x, d', ts, tf, hs, h => by
    simp only [tr] at h
    obtain ⟨⟨y, d1⟩, h1, h⟩ := bindO_ok h
    obtain ⟨⟨z, d2⟩, h2, h⟩ := bindO_ok h
    obtain ⟨e1, ht1, h⟩ := bindO_ok h
    obtain ⟨e2, ht2, h⟩ := bindO_ok h
    simp only [Outcome.ok.injEq, Prod.mk.injEq] at h
    rw [← h.2]
    have k1 := tr_fits a hs h1
    exact k1.trans hs (tr_fits b (k1.same _ _ hs) h2)
  | .call n us, d, x, d', ts, tf, hs, h => by
    simp only [tr] at h
    obtain ⟨⟨xs, d1⟩, h1, h⟩ := bindO_ok h
    have k1 := trs_fits us hs h1
    obtain ⟨m1, m2⟩ := k1.maps hs
    cases hfd : d1.funs.map n with
    | none => simp [hfd] at h
    | some fd =>
      simp only [hfd] at h
      obtain ⟨r, hr, h⟩ := bindO_ok h
      simp only [Outcome.ok.injEq, Prod.mk.injEq] at h
      rw [← h.2]
      refine ⟨k1.same, k1.names, fun c hc => ?_⟩
      simp only [callNames] at hc
      rcases List.mem_cons.mp hc with rfl | hc
      · refine ⟨fd, by rw [← m2]; exact hfd, ?_⟩
        unfold FunDef.apply at hr
        split_ifs at hr with hl
        simp only [ne_eq, not_not] at hl
        rw [hl, trs_length us h1]
      · exact k1.calls c hc
theorem trs_fits : ∀ (us : List STerm) {d : Drv} {xs : List Term} {d' : Drv} {ts tf}, Scopes d ts tf →
    trs use us d = .ok (xs, d') → Fits d d' (freeNamess us) (callNamess us)
  | [], d, xs, d', ts, tf, hs, h => by
    simp only [trs, Outcome.ok.injEq, Prod.mk.injEq] at h
    rw [← h.2]; exact fits_nil
  | t :: us, d, xs, d', ts, tf, hs, h => by
    simp only [trs] at h
    obtain ⟨⟨y, d1⟩, h1, h⟩ := bindO_ok h
    obtain ⟨⟨ys, d2⟩, h2, h⟩ := bindO_ok h
    simp only [Outcome.ok.injEq, Prod.mk.injEq] at h
    rw [← h.2]
    have k1 := tr_fits t hs h1
    exact k1.trans hs (trs_fits us (k1.same _ _ hs) h2)
theorem trs_length : ∀ (us : List STerm) {d : Drv} {xs : List Term} {d' : Drv},
    trs use us d = .ok (xs, d') → xs.length = us.length
  | [], d, xs, d', h => by
    simp only [trs, Outcome.ok.injEq, Prod.mk.injEq] at h
    rw [← h.1]; rfl
  | t :: us, d, xs, d', h => by
    simp only [trs] at h
    obtain ⟨⟨y, d1⟩, h1, h⟩ := bindO_ok h
    obtain ⟨⟨ys, d2⟩, h2, h⟩ := bindO_ok h
    simp only [Outcome.ok.injEq, Prod.mk.injEq] at h
    rw [← h.1]
    simp [trs_length us h2]
end

/-! ## Scripts -/

/-- The driver's names are those declared. -/
structure Declares (d : Drv) (D : Decls) : Prop where
  scopes : ∃ ts tf, Scopes d ts tf
  names : ∀ n, d.scope.map n ≠ none → n ∈ D.1
  funs : ∀ n fd, d.funs.map n = some fd → D.2.lookup n = some fd.params.length

theorem declares_call {d : Drv} {D} (h : Declares d D) (c : Cmd) : Declares (d.call use c) D :=
  ⟨h.scopes, h.names, h.funs⟩

theorem declares_calls {D} : ∀ (l : List Cmd) {d : Drv}, Declares d D →
    Declares (l.foldl (Drv.call use) d) D
  | [], _, h => h
  | c :: l, _, h => declares_calls l (declares_call h c)

theorem uses_of_fits {d d' : Drv} {D} {t : STerm} (h : Declares d D)
    (k : Fits d d' (freeNames t) (callNames t)) : UsesOnly D t := by
  refine ⟨fun n hn => h.names n (k.names n hn), fun c hc => ?_⟩
  obtain ⟨fd, h1, h2⟩ := k.calls c hc
  unfold Decls.arity
  rw [h.funs _ fd h1, h2]

theorem declareParams_length : ∀ (ps : List (String × Srt)) (d : Drv),
    (declareParams use ps d).1.length = ps.length
  | [], _ => rfl
  | (n, s) :: ps, d => by simp [declareParams, declareParams_length ps]

theorem declares_insert {d d' : Drv} {D : Decls} (h : Declares d D) {n v}
    (hs : d'.scope = d.scope.insert n v) (hf : d'.funs = d.funs) : Declares d' (n :: D.1, D.2) := by
  obtain ⟨ts, tf, h1⟩ := h.scopes
  have ha := adds_one hs hf
  obtain ⟨c', hc⟩ := ha.scope ts.cur ts.saved tf h1
  refine ⟨⟨_, _, hc⟩, fun m hm => ?_, by rw [hf]; exact h.funs⟩
  rcases ha.dom m hm with rfl | k
  · simp
  · simp [h.names m k]

theorem step_declares {d d' : Drv} {D : Decls} {c : SCmd} (h : Declares d D)
    (hs : step use d c = .ok d') : CmdUsesOnly D c ∧ Declares d' (D.add c) := by
  cases c with
  | declare n s dom =>
    refine ⟨trivial, ?_⟩
    cases dom with
    | none =>
      simp only [step, Outcome.ok.injEq] at hs
      subst hs
      exact declares_insert h rfl rfl
    | some p =>
      obtain ⟨l, u⟩ := p
      simp only [step, Outcome.ok.injEq] at hs
      subst hs
      exact declares_call (declares_insert (d' := (d.declare use n s).2) h rfl rfl) _
  | define n ps ret body =>
    simp only [step] at hs
    obtain ⟨⟨x, d2⟩, h1, hs⟩ := bindO_ok hs
    obtain ⟨d3, h3, hs⟩ := bindO_ok hs
    obtain ⟨ts, tf, sc⟩ := h.scopes
    have ha := adds_declareParams (use := use) ps d.pushScope
    obtain ⟨c', sc1⟩ := ha.scope _ _ _ (scopes_push sc)
    have k := tr_fits body sc1 h1
    have s3 := scopes_pop (k.same _ _ sc1) h3
    have D1 : Declares (declareParams use ps d.pushScope).2 (ps.map Prod.fst ++ D.1, D.2) := by
      refine ⟨⟨_, _, sc1⟩, fun m hm => ?_, by rw [ha.fmap]; exact h.funs⟩
      rcases ha.dom m hm with k | k
      · exact List.mem_append.mpr (.inl k)
      · exact List.mem_append.mpr (.inr (h.names m k))
    refine ⟨uses_of_fits D1 k, ?_⟩
    have D3 : Declares d3 D := by
      refine ⟨⟨_, _, s3⟩, fun m hm => h.names m ?_, fun m fd hm => h.funs m fd ?_⟩
      · rw [sc.1.1]; rw [s3.1.1] at hm; exact hm
      · rw [sc.2.1]; rw [s3.2.1] at hm; exact hm
    have hl := declareParams_length (use := use) ps d.pushScope
    cases ps with
    | nil =>
      simp only [declareParams, List.isEmpty_nil, if_true] at hs
      obtain ⟨f, hf, hs⟩ := bindO_ok hs
      simp only [Outcome.ok.injEq] at hs
      subst hs
      exact declares_call (declares_insert (d' := (d3.declare use n ret).2) D3 rfl rfl) _
    | cons p ps =>
      have hne : (declareParams use (p :: ps) d.pushScope).1.isEmpty = false := by
        cases hv : (declareParams use (p :: ps) d.pushScope).1 with
        | nil => rw [hv] at hl; simp at hl
        | cons _ _ => rfl
      simp only [hne, Bool.false_eq_true, if_false, Outcome.ok.injEq] at hs
      subst hs
      refine ⟨⟨_, _, s3.1, mrel_insert s3.2 _ _⟩, D3.names, fun m fd hm => ?_⟩
      simp only [insert_map, ScopedMap.upd] at hm
      simp only [Decls.add]
      split_ifs at hm with hmn
      · subst hmn
        simp only [Option.some.injEq] at hm
        subst hm
        simp [hl]
      · rw [List.lookup_cons]
        have : (m == n) = false := by simpa using hmn
        rw [this]
        exact D3.funs m fd hm
  | assert t =>
    simp only [step] at hs
    obtain ⟨⟨x, d2⟩, h1, hs⟩ := bindO_ok hs
    obtain ⟨f, hf, hs⟩ := bindO_ok hs
    simp only [Outcome.ok.injEq] at hs
    subst hs
    obtain ⟨ts, tf, sc⟩ := h.scopes
    have k := tr_fits t sc h1
    obtain ⟨m1, m2⟩ := k.maps sc
    refine ⟨uses_of_fits h k, declares_call ?_ _⟩
    exact ⟨⟨_, _, k.same _ _ sc⟩, by rw [m1]; exact h.names, by rw [m2]; exact h.funs⟩
  | check =>
    simp only [step, Outcome.ok.injEq] at hs
    subst hs
    exact ⟨trivial, declares_call h _⟩
  | push n =>
    simp only [step] at hs
    split_ifs at hs
    simp only [Outcome.ok.injEq] at hs
    subst hs
    exact ⟨trivial, declares_calls _ h⟩
  | pop n =>
    simp only [step] at hs
    split_ifs at hs
    simp only [Outcome.ok.injEq] at hs
    subst hs
    exact ⟨trivial, declares_calls _ h⟩

theorem run_declared : ∀ (cs : List SCmd) {d d' : Drv} {D : Decls}, Declares d D →
    run use cs d = .ok d' → DeclaredBefore D cs
  | [], _, _, _, _, _ => trivial
  | c :: cs, d, d', D, h, hr => by
    simp only [run] at hr
    obtain ⟨d1, h1, hr⟩ := bindO_ok hr
    obtain ⟨k1, k2⟩ := step_declares h h1
    exact ⟨k1, run_declared cs k2 hr⟩

theorem declares_init : Declares ({} : Drv) ([], []) :=
  ⟨⟨⟨fun _ => none, []⟩, ⟨fun _ => none, []⟩, ⟨rfl, by simp [MSegs]⟩, ⟨rfl, by simp [MSegs]⟩⟩,
    by simp, by simp⟩

end Verif.Proof.Smt2
