import Verif.Proof.Conseq
import Verif.Spec.Ite
import Verif.Spec.Smt2

/-! # The calls the front end makes on the context, in order -/

namespace Verif.Proof.Smt2
open Verif Verif.Model Verif.Model.Smt2 Verif.Spec Verif.Spec.Smt2 Verif.Proof

/-- The variable is declared by one of the calls. -/
def DeclIn (l : List Cmd) (v : Variable) : Prop := ∃ m, Cmd.declare v m ∈ l

/-- The counter after calls, from the calls before and the counter then. -/
def count (use : List Cmd → Nat) : List Cmd → Nat → List Cmd → Nat
  | _, n, [] => n
  | l, n, .newVar t :: cs => count use (l ++ [.newVar t]) (n + 1) cs
  | l, n, c :: cs => count use (l ++ [c]) (n + use (l ++ [c])) cs

/-- What a call needs, with `G` the variables known, `l` the calls before and `n` the counter. -/
def CallOk (G : Variable → Prop) (l : List Cmd) (n : Nat) : Cmd → Prop
  | .declare v _ => v.id + 1 = n ∧ l.getLast? = some (.newVar v.type)
  | .setInterval v _ _ => l.getLast? = some (.declare v true)
  | .assert f => FvIn G f ∧ Old n f
  | .newVar _ => True
  | .check => True
  | .push => False
  | .pop => False

/-- The variables known after a call. -/
def after1 (G : Variable → Prop) : Cmd → Variable → Prop
  | .declare v _ => fun w => G w ∨ w = v
  | _ => G

/-- The calls come in a proper order. -/
def Ordered (use : List Cmd → Nat) : (Variable → Prop) → List Cmd → Nat → List Cmd → Prop
  | _, _, _, [] => True
  | G, l, n, c :: cs => CallOk G l n c ∧ Ordered use (after1 G c) (l ++ [c]) (count use l n [c]) cs

variable {use : List Cmd → Nat}

theorem count_cons (l n c cs) : count use l n (c :: cs) = count use (l ++ [c]) (count use l n [c]) cs := by
  cases c <;> simp [count]

theorem count_append : ∀ (a b l n), count use l n (a ++ b) = count use (l ++ a) (count use l n a) b
  | [], b, l, n => by simp [count]
  | c :: a, b, l, n => by
    rw [List.cons_append, count_cons, count_append a b, count_cons l n c a]
    simp

theorem declIn_append {a b v} : DeclIn (a ++ b) v ↔ DeclIn a v ∨ DeclIn b v := by
  simp only [DeclIn, List.mem_append]
  constructor
  · rintro ⟨m, h | h⟩
    exacts [.inl ⟨m, h⟩, .inr ⟨m, h⟩]
  · rintro (⟨m, h⟩ | ⟨m, h⟩)
    exacts [⟨m, .inl h⟩, ⟨m, .inr h⟩]

theorem CallOk.mono {G G' : Variable → Prop} (h : ∀ v, G v → G' v) {l n c} (k : CallOk G l n c) :
    CallOk G' l n c := by
  cases c <;> simp only [CallOk] at k ⊢ <;> try exact k
  exact ⟨k.1.mono h, k.2⟩

theorem after1_mono {G G' : Variable → Prop} (h : ∀ v, G v → G' v) (c) :
    ∀ v, after1 G c v → after1 G' c v := by
  intro v hv
  cases c <;> simp only [after1] at hv ⊢ <;> try exact h v hv
  exact hv.imp (h v) id

theorem Ordered.mono : ∀ (cs) {G G' : Variable → Prop} {l n}, (∀ v, G v → G' v) →
    Ordered use G l n cs → Ordered use G' l n cs
  | [], _, _, _, _, _, _ => trivial
  | c :: cs, _, _, _, _, h, k => ⟨k.1.mono h, k.2.mono cs (after1_mono h c)⟩

theorem after1_iff {G : Variable → Prop} {c v} : after1 G c v ↔ G v ∨ DeclIn [c] v := by
  cases c <;> simp [after1, DeclIn]

theorem ordered_append : ∀ (a b) {G : Variable → Prop} {l n}, Ordered use G l n (a ++ b) ↔
    Ordered use G l n a ∧ Ordered use (fun v => G v ∨ DeclIn a v) (l ++ a) (count use l n a) b
  | [], b, G, l, n => by
    simp only [List.nil_append, Ordered, true_and, List.append_nil, count]
    constructor
    · exact Ordered.mono b fun v h => .inl h
    · exact Ordered.mono b fun v h => h.elim id fun ⟨m, h⟩ => by simp at h
  | c :: a, b, G, l, n => by
    rw [List.cons_append, Ordered, Ordered, ordered_append a b, count_cons l n c a, and_assoc]
    refine and_congr_right fun _ => and_congr_right fun _ => ?_
    have e : (fun v => after1 G c v ∨ DeclIn a v) = fun v => G v ∨ DeclIn (c :: a) v := by
      funext v
      rw [after1_iff, show c :: a = [c] ++ a from rfl, declIn_append, or_assoc]
    rw [e]
    simp

theorem ordered_newVars : ∀ (cs) {G : Variable → Prop} {l n}, (∀ c ∈ cs, ∃ t, c = Cmd.newVar t) →
    Ordered use G l n cs
  | [], _, _, _, _ => trivial
  | c :: cs, G, l, n, h => by
    obtain ⟨t, rfl⟩ := h c (by simp)
    exact ⟨trivial, ordered_newVars cs fun c hc => h c (by simp [hc])⟩

theorem declIn_newVars {cs v} (h : ∀ c ∈ cs, ∃ t, c = Cmd.newVar t) : ¬ DeclIn cs v := by
  rintro ⟨m, hm⟩
  obtain ⟨t, ht⟩ := h _ hm
  cases ht

mutual
theorem oldE_of {n : Nat} : ∀ e : Expr, (∀ v ∈ e.vars, v.id < n) →
    HerE (fun _ => True) (fun _ => True) (fun vs _ => ∀ v ∈ vs, v.id < n) e → OldE n e
  | .const _, _, _ => trivial
  | .rconst _, _, _ => trivial
  | .var v, h, _ => h v (by simp [Expr.vars])
  | .add a b, h, k => ⟨oldE_of a (fun v hv => h v (by simp [Expr.vars, hv])) k.1,
      oldE_of b (fun v hv => h v (by simp [Expr.vars, hv])) k.2⟩
  | .mul a b, h, k => ⟨oldE_of a (fun v hv => h v (by simp [Expr.vars, hv])) k.1,
      oldE_of b (fun v hv => h v (by simp [Expr.vars, hv])) k.2⟩
  | .app1 _ a, h, k => oldE_of a (fun v hv => h v (by simp [Expr.vars, hv])) k
  | .app2 _ a b, h, k => ⟨oldE_of a (fun v hv => h v (by simp [Expr.vars, hv])) k.1,
      oldE_of b (fun v hv => h v (by simp [Expr.vars, hv])) k.2⟩
  | .ite c a b, h, k => ⟨old_of c (fun v hv => h v (by simp [Expr.vars, hv])) k.1,
      oldE_of a (fun v hv => h v (by simp [Expr.vars, hv])) k.2.1,
      oldE_of b (fun v hv => h v (by simp [Expr.vars, hv])) k.2.2⟩
theorem old_of {n : Nat} : ∀ f : Fml, FvIn (fun v => v.id < n) f →
    HerF (fun _ => True) (fun _ => True) (fun vs _ => ∀ v ∈ vs, v.id < n) f → Old n f
  | .ff, _, _ => trivial
  | .tt, _, _ => trivial
  | .bvar v, h, _ => h v (by simp [Fml.fv])
  | .rel _ a b, h, k => ⟨oldE_of a (fun v hv => h v (by simp [Fml.fv, hv])) k.1,
      oldE_of b (fun v hv => h v (by simp [Fml.fv, hv])) k.2⟩
  | .conj fs, h, k => olds_of fs (fun v hv => h v (by simpa [Fml.fv] using hv)) k
  | .disj fs, h, k => olds_of fs (fun v hv => h v (by simpa [Fml.fv] using hv)) k
  | .neg f, h, k => old_of f (fun v hv => h v (by simpa [Fml.fv] using hv)) k
  | .all vs f, h, k => ⟨k.1, old_of f (fun v hv => by
      by_cases hm : v ∈ vs
      · exact k.1 v hm
      · exact h v (by simp [Fml.fv, hv, hm])) k.2⟩
theorem olds_of {n : Nat} : ∀ fs : List Fml, (∀ v ∈ Fml.fvList fs, v.id < n) →
    HerFs (fun _ => True) (fun _ => True) (fun vs _ => ∀ v ∈ vs, v.id < n) fs → OldList n fs
  | [], _, _ => trivial
  | f :: fs, h, k => ⟨old_of f (fun v hv => h v (by simp [Fml.fvList, hv])) k.1,
      olds_of fs (fun v hv => h v (by simp [Fml.fvList, hv])) k.2⟩
end

end Verif.Proof.Smt2
