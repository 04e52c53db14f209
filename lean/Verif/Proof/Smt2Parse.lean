import Verif.Spec.Smt2Grammar

/-! # The SMT-LIB parser -/

namespace Verif.Proof.Smt2Parse
open Verif Verif.Model Verif.Model.Smt2 Verif.Model.Smt2Parse Verif.Spec.Smt2Grammar

variable {A : Actions}

theorem bind_some' {α β} {x : Option α} {f : α → Option β} {b} (h : (x >>= f) = some b) :
    ∃ a, x = some a ∧ f a = some b := Option.bind_eq_some_iff.1 h

theorem sort_iff {s σ} : parseSort s = some σ ↔ SortName s σ := by
  constructor
  · intro h
    unfold parseSort at h
    split_ifs at h with h1 h2 h3 h4
    · cases h; subst h1; exact .real
    · cases h; subst h2; exact .int
    · cases h; subst h3; exact .bool
    · cases h; subst h4; exact .binary
  · rintro (_ | _ | _ | _) <;> decide

theorem int_iff {z t} : intTerm z = some t ↔ |z| ≤ 2 ^ 53 ∧ t = .num z := by
  unfold intTerm convertInt64ToDouble
  simp only [id]
  rw [abs_le]
  split_ifs with h
  · simp only [Option.some.injEq, h, and_self, true_and, eq_comm]
  · simp only [reduceCtorEq, false_iff]
    rintro ⟨h1, -⟩
    exact h h1

theorem fin_iff {x : Option EQ} {q} : x.bind finBound = some q ↔ x = some (.fin q) := by
  rcases x with _ | (_ | _ | _) <;> simp [finBound]

theorem build_sound {op us ts t} (h : Sp A us (.terms ts)) (hb : build op ts = some t) :
    Sp A (.lp :: op :: (us ++ [.rp])) (.term t) := by
  unfold build at hb
  split at hb <;> cases hb
  · exact .eq h
  · exact .rel h
  · exact .and h (by simp)
  · exact .or h (by simp)
  · exact .xor h (by simp)
  · exact .not h
  · exact .imp h
  · exact .ite h
  · exact .add h
  · exact .neg h
  · exact .sub h (by simp)
  · exact .mul h (by simp)
  · exact .div h (by simp)
  · exact .fn1 h
  · exact .fn2 h
  · exact .call h (by simp)

theorem sound : ∀ n,
    (∀ ts t rest, term A n ts = some (t, rest) → ∃ us, ts = us ++ rest ∧ Sp A us (.term t)) ∧
    (∀ ts l rest, args A n ts = some (l, rest) → ∃ us, ts = us ++ .rp :: rest ∧ Sp A us (.terms l)) ∧
    (∀ ts l rest, binds A n ts = some (l, rest) → ∃ us, ts = us ++ .rp :: rest ∧ Sp A us (.binds l)) ∧
    (∀ ts ns l rest, lets A n ts = some (ns, l, rest) →
      ∃ us, ts = us ++ .rp :: rest ∧ Sp A us (.lets ns l)) := by
  intro n
  induction n with
  | zero => simp [term, args, binds, lets]
  | succ n ih =>
    obtain ⟨i1, i2, i3, i4⟩ := ih
    refine ⟨?_, ?_, ?_, ?_⟩
    · intro ts t rest h
      unfold term at h
      split at h
      · omega
      · cases h; exact ⟨[_], rfl, .tru⟩
      · cases h; exact ⟨[_], rfl, .fls⟩
      · replace h := Option.map_eq_some_iff.1 h
        obtain ⟨x, hx, h⟩ := h
        cases h; exact ⟨[_], rfl, .dbl hx⟩
      · cases h; exact ⟨[_], rfl, .hex⟩
      · replace h := Option.map_eq_some_iff.1 h
        obtain ⟨x, hx, h⟩ := h
        cases h
        obtain ⟨h1, rfl⟩ := int_iff.1 hx
        exact ⟨[_], rfl, .int h1⟩
      · cases h; exact ⟨[_], rfl, .sym⟩
      · cases ‹n + 1 = Nat.succ _›
        replace h := bind_some' h
        obtain ⟨⟨bs, r1⟩, h1, h⟩ := h
        replace h := bind_some' h
        obtain ⟨⟨x, r2⟩, h2, h⟩ := h
        obtain ⟨us, rfl, e1⟩ := i3 _ _ _ h1
        obtain ⟨vs, rfl, e2⟩ := i1 _ _ _ h2
        dsimp only at h
        split at h
        · rename_i r3
          cases h
          exact ⟨_, by simp, .all e1 e2⟩
        · cases h
      · cases ‹n + 1 = Nat.succ _›
        replace h := bind_some' h
        obtain ⟨⟨ns, us', r1⟩, h1, h⟩ := h
        replace h := bind_some' h
        obtain ⟨⟨x, r2⟩, h2, h⟩ := h
        obtain ⟨us, rfl, e1⟩ := i4 _ _ _ _ h1
        obtain ⟨vs, rfl, e2⟩ := i1 _ _ _ h2
        dsimp only at h
        split at h
        · rename_i r3
          cases h
          exact ⟨_, by simp, .let_ e1 e2⟩
        · cases h
      · cases ‹n + 1 = Nat.succ _›
        replace h := bind_some' h
        obtain ⟨⟨l, r1⟩, h1, h⟩ := h
        replace h := bind_some' h
        obtain ⟨x, h2, h⟩ := h
        obtain ⟨us, rfl, e1⟩ := i2 _ _ _ h1
        cases h
        exact ⟨_, by simp, build_sound e1 h2⟩
      · cases h
    · intro ts l rest h
      unfold args at h
      split at h
      · omega
      · cases h; exact ⟨[], rfl, .noTerm⟩
      · cases ‹n + 1 = Nat.succ _›
        replace h := bind_some' h
        obtain ⟨⟨x, r1⟩, h1, h⟩ := h
        replace h := bind_some' h
        obtain ⟨⟨y, r2⟩, h2, h⟩ := h
        obtain ⟨us, rfl, e1⟩ := i1 _ _ _ h1
        obtain ⟨vs, rfl, e2⟩ := i2 _ _ _ h2
        cases h
        exact ⟨_, by simp, .terms e1 e2⟩
    · intro ts l rest h
      unfold binds at h
      split at h
      · omega
      · cases h; exact ⟨[], rfl, .noBind⟩
      · cases ‹n + 1 = Nat.succ _›
        replace h := bind_some' h
        obtain ⟨σ, h0, h⟩ := h
        replace h := bind_some' h
        obtain ⟨⟨y, r2⟩, h2, h⟩ := h
        obtain ⟨vs, rfl, e2⟩ := i3 _ _ _ h2
        cases h
        exact ⟨_, by simp, .bind (sort_iff.1 h0) e2⟩
      · cases ‹n + 1 = Nat.succ _›
        replace h := bind_some' h
        obtain ⟨σ, h0, h⟩ := h
        replace h := bind_some' h
        obtain ⟨⟨a, r1⟩, h1, h⟩ := h
        obtain ⟨us, rfl, e1⟩ := i1 _ _ _ h1
        dsimp only at h
        split at h
        · replace h := bind_some' h
          obtain ⟨⟨b, r2⟩, h2, h⟩ := h
          obtain ⟨vs, hv, e2⟩ := i1 _ _ _ h2
          dsimp only at h
          split at h
          · replace h := bind_some' h
            obtain ⟨l, hl, h⟩ := h
            replace h := bind_some' h
            obtain ⟨u, hu, h⟩ := h
            replace h := bind_some' h
            obtain ⟨⟨bs, r3⟩, h3, h⟩ := h
            obtain ⟨ws, hw, e3⟩ := i3 _ _ _ h3
            cases h
            subst hw
            rw [hv]
            exact ⟨_, by simp, .bound (sort_iff.1 h0) e1 e2 (fin_iff.1 hl) (fin_iff.1 hu) e3⟩
          · cases h
        · cases h
      · cases h
    · intro ts ns l rest h
      unfold lets at h
      split at h
      · omega
      · cases h; exact ⟨[], rfl, .noLet⟩
      · cases ‹n + 1 = Nat.succ _›
        replace h := bind_some' h
        obtain ⟨⟨a, r1⟩, h1, h⟩ := h
        obtain ⟨us, rfl, e1⟩ := i1 _ _ _ h1
        dsimp only at h
        split at h
        · replace h := bind_some' h
          obtain ⟨⟨ns', l', r2⟩, h2, h⟩ := h
          obtain ⟨vs, hv, e2⟩ := i4 _ _ _ _ h2
          cases h
          subst hv
          exact ⟨_, by simp, .lets e1 e2⟩
        · cases h
      · cases h

theorem head_term {us t} (h : Sp A us (.term t)) : ∃ c cs, us = c :: cs ∧ c ≠ .rp := by
  cases h <;> exact ⟨_, _, rfl, by simp⟩

/-- What the parser makes of a node. -/
def Read (A : Actions) (us : List Tok) : Node → Prop
  | .term t => ∀ n rest, us.length ≤ n → term A n (us ++ rest) = some (t, rest)
  | .terms l => ∀ n rest, us.length < n → args A n (us ++ .rp :: rest) = some (l, rest)
  | .binds l => ∀ n rest, us.length < n → binds A n (us ++ .rp :: rest) = some (l, rest)
  | .lets ns l => ∀ n rest, us.length < n → lets A n (us ++ .rp :: rest) = some (ns, l, rest)

theorem read_op {op us l t} (h1 : op ≠ .all) (h2 : op ≠ .let_)
    (ih : Read A us (.terms l)) (hb : build op l = some t) :
    Read A (.lp :: op :: (us ++ [.rp])) (.term t) := by
  intro n rest hn
  simp only [List.length_cons, List.length_append, List.length_nil] at hn
  obtain ⟨n, rfl⟩ : ∃ m, n = m + 1 := ⟨n - 1, by omega⟩
  have e : Tok.lp :: op :: (us ++ [.rp]) ++ rest = .lp :: op :: (us ++ .rp :: rest) := by simp
  rw [e]
  have ih := ih n rest (by omega)
  rw [term]
  · rw [ih]
    simp [hb]
  · intro ts h; exact absurd (by simp_all) h1
  · intro ts h; exact absurd (by simp_all) h2

theorem complete {us node} (h : Sp A us node) : Read A us node := by
  induction h with
  | tru | fls | hex | sym =>
    intro n rest hn
    obtain ⟨n, rfl⟩ : ∃ m, n = m + 1 := ⟨n - 1, by simp at hn; omega⟩
    simp [term]
  | dbl hl =>
    intro n rest hn
    obtain ⟨n, rfl⟩ : ∃ m, n = m + 1 := ⟨n - 1, by simp at hn; omega⟩
    simp [term, hl]
  | int hz =>
    intro n rest hn
    obtain ⟨n, rfl⟩ : ∃ m, n = m + 1 := ⟨n - 1, by simp at hn; omega⟩
    simp [term, int_iff.2 ⟨hz, rfl⟩]
  | eq _ ih | rel _ ih | not _ ih | imp _ ih | ite _ ih | neg _ ih | fn1 _ ih | fn2 _ ih | add _ ih =>
    exact read_op (by simp) (by simp) ih rfl
  | @and _ ts _ hn ih | @or _ ts _ hn ih | @xor _ ts _ hn ih | @call _ _ ts _ hn ih =>
    obtain ⟨t, ts, rfl⟩ := List.exists_cons_of_ne_nil hn
    exact read_op (by simp) (by simp) ih rfl
  | @sub _ _ ts _ hn ih | @mul _ _ ts _ hn ih | @div _ _ ts _ hn ih =>
    obtain ⟨t, ts, rfl⟩ := List.exists_cons_of_ne_nil hn
    exact read_op (by simp) (by simp) ih rfl
  | @all us vs bs t h1 h2 ih1 ih2 =>
    intro n rest hn
    simp only [List.length_cons, List.length_append, List.length_nil] at hn
    obtain ⟨n, rfl⟩ : ∃ m, n = m + 1 := ⟨n - 1, by omega⟩
    have e : Tok.lp :: .all :: .lp :: (us ++ .rp :: (vs ++ [.rp])) ++ rest =
      .lp :: .all :: .lp :: (us ++ .rp :: (vs ++ .rp :: rest)) := by simp
    rw [e, term, ih1 n _ (by omega)]
    simp [ih2 n (.rp :: rest) (by omega)]
  | @let_ us vs ns l t h1 h2 ih1 ih2 =>
    intro n rest hn
    simp only [List.length_cons, List.length_append, List.length_nil] at hn
    obtain ⟨n, rfl⟩ : ∃ m, n = m + 1 := ⟨n - 1, by omega⟩
    have e : Tok.lp :: .let_ :: .lp :: (us ++ .rp :: (vs ++ [.rp])) ++ rest =
      .lp :: .let_ :: .lp :: (us ++ .rp :: (vs ++ .rp :: rest)) := by simp
    rw [e, term, ih1 n _ (by omega)]
    simp [ih2 n (.rp :: rest) (by omega)]
  | noTerm | noBind | noLet =>
    intro n rest hn
    obtain ⟨n, rfl⟩ : ∃ m, n = m + 1 := ⟨n - 1, by omega⟩
    simp [args, binds, lets]
  | @terms us vs t l h1 h2 ih1 ih2 =>
    intro n rest hn
    simp only [List.length_append] at hn
    obtain ⟨n, rfl⟩ : ∃ m, n = m + 1 := ⟨n - 1, by omega⟩
    obtain ⟨c, cs, hc, hne⟩ := head_term h1
    have hl : 0 < us.length := by simp [hc]
    have i1 := ih1 n (vs ++ .rp :: rest) (by omega)
    have i2 := ih2 n rest (by omega)
    rw [List.append_assoc, args]
    · rw [i1]
      simp [i2]
    · intro ts h
      rw [hc] at h
      exact hne (List.cons.inj h).1
  | @bind x s σ us bs hs h1 ih =>
    intro n rest hn
    simp only [List.length_cons] at hn
    obtain ⟨n, rfl⟩ : ∃ m, n = m + 1 := ⟨n - 1, by omega⟩
    simp [binds, sort_iff.2 hs, ih n rest (by omega)]
  | @bound x s σ us vs ws bs a b l u hs h1 h2 hl hu h3 ih1 ih2 ih3 =>
    intro n rest hn
    simp only [List.length_cons, List.length_append] at hn
    obtain ⟨n, rfl⟩ : ∃ m, n = m + 1 := ⟨n - 1, by omega⟩
    have e : Tok.lp :: .sym x :: .sym s :: .lb :: (us ++ .comma :: (vs ++ .rb :: .rp :: ws)) ++
      .rp :: rest = .lp :: .sym x :: .sym s :: .lb ::
        (us ++ .comma :: (vs ++ .rb :: .rp :: (ws ++ .rp :: rest))) := by simp
    rw [e, binds, sort_iff.2 hs]
    simp only [Option.bind_eq_bind, Option.bind_some]
    rw [ih1 n _ (by omega)]
    simp only [Option.bind_some]
    rw [ih2 n _ (by omega)]
    simp [hl, hu, finBound, ih3 n rest (by omega)]
  | @lets x us vs t ns l h1 h2 ih1 ih2 =>
    intro n rest hn
    simp only [List.length_cons, List.length_append] at hn
    obtain ⟨n, rfl⟩ : ∃ m, n = m + 1 := ⟨n - 1, by omega⟩
    have e : Tok.lp :: .sym x :: (us ++ .rp :: vs) ++ .rp :: rest =
      .lp :: .sym x :: (us ++ .rp :: (vs ++ .rp :: rest)) := by simp
    rw [e, Model.Smt2Parse.lets, ih1 n _ (by omega)]
    simp [ih2 n rest (by omega)]

theorem term_iff {ts t rest} :
    readTerm A ts = some (t, rest) ↔ ∃ us, ts = us ++ rest ∧ Spells A us t := by
  constructor
  · exact (sound _).1 _ _ _
  · rintro ⟨us, rfl, h⟩
    exact complete h _ _ (by simp)

theorem args_iff {ts l rest} :
    args A ts.length ts = some (l, rest) ↔ ∃ us, ts = us ++ .rp :: rest ∧ Sp A us (.terms l) := by
  constructor
  · exact (sound _).2.1 _ _ _
  · rintro ⟨us, rfl, h⟩
    exact complete h _ _ (by simp)

theorem params_iff : ∀ {ts ps rest}, params ts = some (ps, rest) ↔
    ∃ us, ts = us ++ .rp :: rest ∧ SpP us ps := by
  intro ts ps rest
  constructor
  · intro h
    fun_induction params ts generalizing ps with
    | case1 ts => cases h; exact ⟨[], rfl, .nil⟩
    | case2 x s ts ih =>
      replace h := bind_some' h
      obtain ⟨σ, h0, h⟩ := h
      replace h := bind_some' h
      obtain ⟨⟨ps', r⟩, h1, h⟩ := h
      cases h
      obtain ⟨us, rfl, e⟩ := ih h1
      exact ⟨_, by simp, .cons (sort_iff.1 h0) e⟩
    | case3 => cases h
  · rintro ⟨us, rfl, h⟩
    induction h with
    | nil => simp [params]
    | cons hs _ ih => simp [params, sort_iff.2 hs, ih]

theorem last_iff {mk : STerm → PCmd} {ts c rest} : lastTerm A mk ts = some (c, rest) ↔
    ∃ us t, ts = us ++ .rp :: rest ∧ Spells A us t ∧ c = mk t := by
  unfold lastTerm
  constructor
  · intro h
    split at h
    · rename_i t r ht
      cases h
      obtain ⟨us, rfl, e⟩ := term_iff.1 ht
      exact ⟨us, t, rfl, e, rfl⟩
    · cases h
  · rintro ⟨us, t, rfl, h, rfl⟩
    rw [term_iff.2 ⟨us, rfl, h⟩]

theorem declared_iff {x σ ts c rest} : declared A x σ ts = some (c, rest) ↔
    ∃ us d, ts = us ++ .rp :: rest ∧ SpB A us d ∧ c = .core (.declare x σ d) := by
  constructor
  · intro h
    unfold declared at h
    split at h
    · cases h; exact ⟨[], none, rfl, .none, rfl⟩
    · replace h := bind_some' h
      obtain ⟨⟨a, r1⟩, h1, h⟩ := h
      obtain ⟨us, rfl, e1⟩ := term_iff.1 h1
      dsimp only at h
      split at h
      · replace h := bind_some' h
        obtain ⟨⟨b, r2⟩, h2, h⟩ := h
        obtain ⟨vs, hv, e2⟩ := term_iff.1 h2
        dsimp only at h
        split at h
        · replace h := bind_some' h
          obtain ⟨l, hl, h⟩ := h
          replace h := bind_some' h
          obtain ⟨u, hu, h⟩ := h
          cases h
          rw [hv]
          exact ⟨_, _, by simp, .some e1 e2 hl hu, rfl⟩
        · cases h
      · cases h
    · cases h
  · rintro ⟨us, d, rfl, h, rfl⟩
    cases h with
    | none => rfl
    | @some us vs a b l u h1 h2 hl hu =>
      have e : Tok.lb :: (us ++ .comma :: (vs ++ [.rb])) ++ .rp :: rest =
        .lb :: (us ++ .comma :: (vs ++ .rb :: .rp :: rest)) := by simp
      rw [e, declared, term_iff.2 ⟨us, rfl, h1⟩]
      simp only [Option.bind_eq_bind, Option.bind_some]
      rw [term_iff.2 ⟨vs, rfl, h2⟩]
      simp [hl, hu]

theorem levels_iff {mk : Int → SCmd} {z c} : levels mk z = some c ↔
    -2 ^ 31 ≤ z ∧ z < 2 ^ 31 ∧ c = .core (mk z) := by
  unfold levels convertInt64ToInt
  split_ifs with h
  · simp only [Option.some.injEq]
    constructor
    · rintro rfl; exact ⟨h.1, by omega, rfl⟩
    · rintro ⟨_, _, rfl⟩; rfl
  · simp only [reduceCtorEq, false_iff]
    rintro ⟨h1, h2, -⟩
    exact h ⟨h1, by omega⟩

theorem command_iff {ts c rest} :
    command A ts = some (c, rest) ↔ ∃ us, ts = us ++ rest ∧ SpC A us c := by
  constructor
  · intro h
    unfold command at h
    split at h
    · replace h := last_iff.1 h
      obtain ⟨us, t, rfl, h, rfl⟩ := h
      exact ⟨_, by simp, .assert h⟩
    · cases h; exact ⟨[_, _, _], rfl, .check⟩
    · replace h := Option.bind_eq_some_iff.1 h
      obtain ⟨σ, h0, h⟩ := h
      replace h := declared_iff.1 h
      obtain ⟨us, d, rfl, h, rfl⟩ := h
      exact ⟨_, by simp, .declareFun (sort_iff.1 h0) h⟩
    · replace h := Option.bind_eq_some_iff.1 h
      obtain ⟨σ, h0, h⟩ := h
      replace h := declared_iff.1 h
      obtain ⟨us, d, rfl, h, rfl⟩ := h
      exact ⟨_, by simp, .declareConst (sort_iff.1 h0) h⟩
    · replace h := bind_some' h
      obtain ⟨⟨ps, r1⟩, h1, h⟩ := h
      obtain ⟨us, rfl, e1⟩ := params_iff.1 h1
      dsimp only at h
      split at h
      · replace h := Option.bind_eq_some_iff.1 h
        obtain ⟨σ, h0, h⟩ := h
        replace h := last_iff.1 h
        obtain ⟨vs, t, hv, h, rfl⟩ := h
        subst hv
        exact ⟨_, by simp, .define e1 (sort_iff.1 h0) h⟩
      · cases h
    · cases h; exact ⟨[_, _, _], rfl, .exit⟩
    · cases h; exact ⟨[_, _, _], rfl, .getModel⟩
    · split at h
      · rename_i t us r ha
        obtain ⟨vs, rfl, e⟩ := args_iff.1 ha
        cases h
        exact ⟨_, by simp, .getValue e (by simp)⟩
      · cases h
    · replace h := last_iff.1 h
      obtain ⟨us, t, rfl, h, rfl⟩ := h
      exact ⟨_, by simp, .maximize h⟩
    · replace h := last_iff.1 h
      obtain ⟨us, t, rfl, h, rfl⟩ := h
      exact ⟨_, by simp, .minimize h⟩
    · cases h; exact ⟨[_, _, _, _, _], rfl, .infoSym⟩
    · cases h; exact ⟨[_, _, _, _, _], rfl, .infoStr⟩
    · replace h := Option.map_eq_some_iff.1 h
      obtain ⟨q, hq, h⟩ := h
      cases h; exact ⟨[_, _, _, _, _], rfl, .infoNum hq⟩
    · split at h
      · rename_i hk
        cases h
        exact ⟨[_, _, _, _], rfl, .logic (by simpa [knownLogic] using hk)⟩
      · cases h
    · cases h; exact ⟨[_, _, _, _, _], rfl, .setSym⟩
    · replace h := Option.map_eq_some_iff.1 h
      obtain ⟨q, hq, h⟩ := h
      cases h; exact ⟨[_, _, _, _, _], rfl, .setNum hq⟩
    · cases h; exact ⟨[_, _, _, _, _], rfl, .setTrue⟩
    · cases h; exact ⟨[_, _, _, _, _], rfl, .setFalse⟩
    · cases h; exact ⟨[_, _, _, _], rfl, .getOption⟩
    · replace h := Option.map_eq_some_iff.1 h
      obtain ⟨q, hq, h⟩ := h
      obtain ⟨h1, h2, rfl⟩ := levels_iff.1 hq
      cases h; exact ⟨[_, _, _, _], rfl, .push h1 h2⟩
    · replace h := Option.map_eq_some_iff.1 h
      obtain ⟨q, hq, h⟩ := h
      obtain ⟨h1, h2, rfl⟩ := levels_iff.1 hq
      cases h; exact ⟨[_, _, _, _], rfl, .pop h1 h2⟩
    · cases h
  · rintro ⟨us, rfl, h⟩
    cases h with
    | assert h =>
      simp only [List.cons_append, List.append_assoc, List.nil_append]
      rw [command]
      exact last_iff.2 ⟨_, _, rfl, h, rfl⟩
    | maximize h =>
      simp only [List.cons_append, List.append_assoc, List.nil_append]
      rw [command]
      exact last_iff.2 ⟨_, _, rfl, h, rfl⟩
    | minimize h =>
      simp only [List.cons_append, List.append_assoc, List.nil_append]
      rw [command]
      exact last_iff.2 ⟨_, _, rfl, h, rfl⟩
    | declareFun hs h =>
      simp only [List.cons_append, List.append_assoc, List.nil_append]
      rw [command, sort_iff.2 hs]
      exact declared_iff.2 ⟨_, _, rfl, h, rfl⟩
    | declareConst hs h =>
      simp only [List.cons_append, List.append_assoc, List.nil_append]
      rw [command, sort_iff.2 hs]
      exact declared_iff.2 ⟨_, _, rfl, h, rfl⟩
    | define hp hs h =>
      simp only [List.cons_append, List.append_assoc, List.nil_append]
      rw [command, params_iff.2 ⟨_, rfl, hp⟩]
      simp only [Option.bind_eq_bind, Option.bind_some, sort_iff.2 hs]
      exact last_iff.2 ⟨_, _, rfl, h, rfl⟩
    | getValue h hn =>
      simp only [List.cons_append, List.append_assoc, List.nil_append]
      obtain ⟨t, l, rfl⟩ := List.exists_cons_of_ne_nil hn
      rw [command, args_iff.2 ⟨_, rfl, h⟩]
    | setNum h => simp [command, h]
    | infoNum h => simp [command, h]
    | @logic s h =>
      have h' : knownLogic s = true := by simpa [knownLogic] using h
      simp [command, h']
    | push h1 h2 => simp [command, levels_iff.2 ⟨h1, h2, rfl⟩]
    | pop h1 h2 => simp [command, levels_iff.2 ⟨h1, h2, rfl⟩]
    | _ => simp [command]

theorem command_pos {us c} (h : SpC A us c) : 0 < us.length := by
  cases h <;> simp

theorem scriptN_fuel : ∀ {n m ts}, ts.length < n → ts.length < m → scriptN A n ts = scriptN A m ts := by
  intro n
  induction n with
  | zero => intro m ts h; omega
  | succ n ih =>
    intro m ts h h'
    obtain ⟨m, rfl⟩ : ∃ k, m = k + 1 := ⟨m - 1, by omega⟩
    rw [scriptN, scriptN]
    split
    · rfl
    · rfl
    · rfl
    · rename_i c rest hne hc
      obtain ⟨us, rfl, e⟩ := command_iff.1 hc
      have := command_pos e
      simp only [List.length_append] at h h'
      rw [ih (m := m) (by omega) (by omega)]

theorem script_none {ts} (h : command A ts = none) : script A ts = ([], false) := by
  unfold script
  rw [scriptN, h]

theorem script_exit {ts rest} (h : command A ts = some (.exit, rest)) :
    script A ts = ([.exit], true) := by
  unfold script
  rw [scriptN, h]

theorem script_last {ts c} (h : command A ts = some (c, [])) : script A ts = ([c], true) := by
  unfold script
  rw [scriptN, h]
  cases c <;> rfl

theorem script_more {ts c rest} (h : command A ts = some (c, rest)) (hc : c ≠ .exit)
    (hr : rest ≠ []) : script A ts = (c :: (script A rest).1, (script A rest).2) := by
  obtain ⟨us, hu, e⟩ := command_iff.1 h
  have h1 := command_pos e
  have h2 : scriptN A ts.length rest = script A rest := by
    unfold script
    refine scriptN_fuel ?_ (by omega)
    rw [hu, List.length_append]; omega
  obtain ⟨t, r, rfl⟩ := List.exists_cons_of_ne_nil hr
  rw [← h2]
  unfold script
  rw [scriptN, h]
  cases c <;> first | exact absurd rfl hc | rfl

/-- What a script is accepted as. -/
theorem script_iff {ts cs} : script A ts = (cs, true) ↔ ∃ us rest, ts = us ++ rest ∧ SpS A us cs ∧
    (rest = [] ∨ cs.getLast? = some .exit) := by
  constructor
  · generalize hn : ts.length = n
    induction n using Nat.strong_induction_on generalizing ts cs with
    | _ n ih =>
      intro h
      cases hc : command A ts with
      | none => rw [script_none hc] at h; cases h
      | some p =>
        obtain ⟨c, rest⟩ := p
        obtain ⟨us, rfl, e⟩ := command_iff.1 hc
        by_cases h1 : c = .exit
        · subst h1
          rw [script_exit hc] at h
          cases h
          exact ⟨us, rest, rfl, .last e, .inr rfl⟩
        by_cases h2 : rest = []
        · subst h2
          rw [script_last hc] at h
          cases h
          exact ⟨us, [], rfl, .last e, .inl rfl⟩
        rw [script_more hc h1 h2, Prod.mk.injEq] at h
        obtain ⟨rfl, h3⟩ := h
        have hl := command_pos e
        rw [List.length_append] at hn
        obtain ⟨vs, r, rfl, e2, h4⟩ := ih rest.length (by omega) rfl (Prod.ext rfl h3)
        refine ⟨us ++ vs, r, by simp, .cons e h1 e2, ?_⟩
        rcases h4 with h4 | h4
        · exact .inl h4
        · right
          rw [List.getLast?_cons, h4]; rfl
  · rintro ⟨us, rest, rfl, h, hr⟩
    induction h with
    | @last us c h =>
      rcases hr with rfl | hr
      · exact script_last (command_iff.2 ⟨us, rfl, h⟩)
      · cases hr
        exact script_exit (command_iff.2 ⟨us, rfl, h⟩)
    | @cons us vs c cs h hne h2 ih =>
      have hv : vs ≠ [] := by
        cases h2 with
        | last h => exact List.length_pos_iff.1 (command_pos h)
        | cons h _ _ => intro he; simp [List.length_pos_iff.1 (command_pos h)] at he
      have hr' : rest = [] ∨ cs.getLast? = some .exit := by
        rcases hr with hr | hr
        · exact .inl hr
        · right
          cases cs with
          | nil => cases h2
          | cons d ds => rwa [List.getLast?_cons_cons] at hr
      rw [script_more (command_iff.2 ⟨us, by rw [List.append_assoc], h⟩) hne (by simp [hv]), ih hr']

end Verif.Proof.Smt2Parse
