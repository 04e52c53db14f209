import Verif.Proof.ExprNorm
import Verif.Model.Diff

/-!
# What arithmetic and differentiation keep

A property of expressions that holds of constants and goes down to the parts and up again is kept.
-/

namespace Verif.Proof
open Verif.Model Verif.Spec

/-- The property goes down to the parts and up again. -/
structure Inherits (P : Cell → Prop) (PT : CTerms → Prop) (PG : CFactors → Prop) : Prop where
  const : ∀ q, P (.const q)
  add : ∀ c ts, P (.add c ts) ↔ PT ts
  mul : ∀ c fs, P (.mul c fs) ↔ PG fs
  un : ∀ f a, P (.un f a) ↔ P a
  bin : ∀ f a b, P (.bin f a b) ↔ P a ∧ P b
  nilT : PT .nil
  consT : ∀ e q ts, PT (.cons e q ts) ↔ P e ∧ PT ts
  nilG : PG .nil
  consG : ∀ b e fs, PG (.cons b e fs) ↔ P b ∧ P e ∧ PG fs

/-- If something is returned, it has the property. -/
def Post {α : Type} (r : Run α) (Q : α → Prop) : Prop := ∀ a, r = .ok a → Q a

theorem Post.bind {α β : Type} {x : Run α} {f : α → Run β} {R : α → Prop} {Q : β → Prop}
    (h : Post x R) (k : ∀ a, R a → Post (f a) Q) : Post (x >>= f) Q := by
  intro b hb
  obtain ⟨a, h1, h2⟩ := bindR_ok hb
  exact k a (h a h1) b h2

theorem Post.ok {α : Type} {a : α} {Q : α → Prop} (h : Q a) : Post (.ok a) Q := by
  intro b hb
  cases hb
  exact h

theorem Post.throw {α : Type} {Q : α → Prop} : Post (.throw : Run α) Q := fun _ h => by cases h
theorem Post.ub {α : Type} {Q : α → Prop} : Post (.ub : Run α) Q := fun _ h => by cases h
theorem Post.oof {α : Type} {Q : α → Prop} : Post (.oof : Run α) Q := fun _ h => by cases h

/-- What is shown of all functions with fuel `n`. -/
structure KeepAll (A : Arith) (P : Cell → Prop) (PT : CTerms → Prop) (PG : CFactors → Prop)
    (n : Nat) : Prop where
  add : ∀ a b, P a → P b → Post (addE A n a b) P
  addX : ∀ c e, PT c.2 → P e → Post (addExpr A n c e) fun r => PT r.2
  getA : ∀ c, PT c.2 → Post (getAdd A n c) P
  mul : ∀ a b, P a → P b → Post (mulE A n a b) P
  rest : ∀ a b, P a → P b → Post (mulRest A n a b) P
  flat : ∀ a b, P a → P b → Post (mulFlat A n a b) P
  mulX : ∀ c e, PG c.2 → P e → Post (mulExpr A n c e) fun r => PG r.2
  map : ∀ fs gs, PG fs → PG gs → Post (mulMap A n fs gs) PG
  term : ∀ fs b e, PG fs → P b → P e → Post (mulTerm A n fs b e) PG
  ins : ∀ b e fs, PG fs → P b → P e → Post (mulIns A n b e fs) PG
  getM : ∀ c, PG c.2 → Post (getMul A n c) P
  pow : ∀ a b, P a → P b → Post (powE A n a b) P
  div : ∀ a b, P a → P b → Post (divE A n a b) P

section
variable {A : Arith} {P : Cell → Prop} {PT : CTerms → Prop} {PG : CFactors → Prop}

theorem addTerm_keep (hP : Inherits P PT PG) {q : ℚ} {e : Cell} (he : P e) : ∀ ts, PT ts →
    PT (CTerms.addTerm A q e ts)
  | .nil, h => (hP.consT _ _ _).2 ⟨he, h⟩
  | .cons k p ts, h => by
    have hc := (hP.consT _ _ _).1 h
    simp only [CTerms.addTerm]
    split_ifs
    · exact (hP.consT _ _ _).2 ⟨he, h⟩
    · exact (hP.consT _ _ _).2 ⟨hc.1, addTerm_keep hP he ts hc.2⟩
    · exact hc.2
    · exact (hP.consT _ _ _).2 hc

theorem addMap_keep (hP : Inherits P PT PG) : ∀ us ts, PT ts → PT us →
    Post (CTerms.addMap A ts us) PT
  | .nil, ts, h, _ => Post.ok h
  | .cons e q us, ts, h, hu => by
    have hc := (hP.consT _ _ _).1 hu
    simp only [CTerms.addMap]
    split_ifs
    · exact Post.ub
    · exact addMap_keep hP us _ (addTerm_keep hP hc.1 ts h) hc.2

theorem negate_keep (hP : Inherits P PT PG) : ∀ ts, PT ts → PT ts.negate
  | .nil, h => h
  | .cons e q ts, h => by
    have hc := (hP.consT _ _ _).1 h
    exact (hP.consT _ _ _).2 ⟨hc.1, negate_keep hP ts hc.2⟩

variable {n : Nat}

theorem keep_two (hP : Inherits P PT PG) (ih : KeepAll A P PT PG n) {a b : Cell} (ha : P a) (hb : P b) :
    Post (do
      let f ← mulExpr A n (1, .nil) a
      let g ← mulExpr A n f b
      getMul A n g) P :=
  (ih.mulX (1, .nil) a hP.nilG ha).bind fun f hf => (ih.mulX f b hf hb).bind fun g hg => ih.getM g hg

theorem keep_one (ih : KeepAll A P PT PG n) {c : ℚ} {fs : CFactors} {b : Cell} (hf : PG fs)
    (hb : P b) : Post (do
      let f ← mulExpr A n (c, fs) b
      getMul A n f) P :=
  (ih.mulX (c, fs) b hf hb).bind fun g hg => ih.getM g hg

theorem keep_sum (ih : KeepAll A P PT PG n) {a b e : Cell} (ha : P a) (hb : P b) (he : P e) :
    Post (do
      let s ← addE A n a b
      powE A n e s) P :=
  (ih.add a b ha hb).bind fun s hs => ih.pow e s he hs

theorem keep_step (hP : Inherits P PT PG) (ih : KeepAll A P PT PG n) : KeepAll A P PT PG (n + 1) where
  add a b ha hb := by
    unfold addE
    split_ifs
    · exact Post.ok hb
    · exact Post.ok ha
    · split
      · exact Post.ok (hP.const _)
      · exact (ih.addX _ _ ((hP.add _ _).1 ha) hb).bind fun f hf => ih.getA f hf
      · exact (ih.addX _ _ ((hP.add _ _).1 hb) ha).bind fun f hf => ih.getA f hf
      · exact (ih.addX (0, .nil) _ hP.nilT ha).bind fun f hf => (ih.addX f _ hf hb).bind
          fun g hg => ih.getA g hg
  addX c e hc he := by
    obtain ⟨c, ts⟩ := c
    unfold addExpr
    try dsimp only
    split
    · exact Post.ok hc
    · exact (addMap_keep hP _ ts hc ((hP.add _ _).1 he)).bind fun t ht => Post.ok ht
    · split_ifs
      · exact Post.ok (addTerm_keep hP he ts hc)
      · refine (ih.getM (1, _) ((hP.mul _ _).1 he)).bind fun t ht => ?_
        split_ifs
        · exact Post.ub
        · exact Post.ok (addTerm_keep hP ht ts hc)
    · exact Post.ok (addTerm_keep hP he ts hc)
  getA c hc := by
    obtain ⟨c, ts⟩ := c
    unfold getAdd
    try dsimp only
    split
    · exact Post.ok (hP.const _)
    · split_ifs
      · exact ih.mul _ _ (hP.const _) ((hP.consT _ _ _).1 hc).1
      · exact Post.ok ((hP.add _ _).2 hc)
    · exact Post.ok ((hP.add _ _).2 hc)
  mul a b ha hb := by
    unfold mulE
    split_ifs
    · exact Post.ok hb
    · exact Post.ok ha
    · split
      · have h1 := (hP.bin _ _ _).1 ha
        have h2 := (hP.bin _ _ _).1 hb
        exact (ih.mul _ _ h1.1 h2.1).bind fun x hx => (ih.mul _ _ h1.2 h2.2).bind fun y hy =>
          ih.div x y hx hy
      · split
        · have h2 := (hP.bin _ _ _).1 hb
          exact (ih.mul _ _ (hP.const _) ha).bind fun x hx => ih.div x _ hx h2.2
        · have h1 := (hP.bin _ _ _).1 ha
          exact (ih.mul _ _ (hP.const _) hb).bind fun x hx => ih.div x _ hx h1.2
        · exact ih.rest _ _ ha hb
  rest a b ha hb := by
    unfold mulRest
    split
    · exact Post.ok (hP.const _)
    · split_ifs
      · split
        · exact ih.getA _ (negate_keep hP _ ((hP.add _ _).1 hb))
        · exact ih.getM _ ((hP.mul _ _).1 hb)
        · exact ih.flat _ _ ha hb
      · exact Post.ok (hP.const _)
      · exact ih.flat _ _ ha hb
    · split_ifs
      · split
        · exact ih.getA _ (negate_keep hP _ ((hP.add _ _).1 ha))
        · exact ih.getM _ ((hP.mul _ _).1 ha)
        · exact ih.flat _ _ ha hb
      · exact Post.ok (hP.const _)
      · exact ih.flat _ _ ha hb
    · exact ih.flat _ _ ha hb
  flat a b ha hb := by
    unfold mulFlat
    split
    · have h1 := (hP.bin _ _ _).1 ha
      have h2 := (hP.bin _ _ _).1 hb
      split_ifs
      · exact keep_sum ih h1.2 h2.2 h1.1
      · exact keep_sum ih (hP.const _) h1.2 h1.1
      · exact keep_two hP ih ha hb
    · have h1 := (hP.bin _ _ _).1 ha
      split_ifs
      · exact keep_sum ih (hP.const _) h1.2 h1.1
      · split
        · exact keep_one ih ((hP.mul _ _).1 hb) ha
        · exact keep_two hP ih ha hb
    · have h1 := (hP.bin _ _ _).1 hb
      split_ifs
      · exact keep_sum ih (hP.const _) h1.2 h1.1
      · split
        · exact keep_one ih ((hP.mul _ _).1 ha) hb
        · exact keep_two hP ih ha hb
    · exact keep_one ih ((hP.mul _ _).1 ha) hb
    · exact keep_one ih ((hP.mul _ _).1 hb) ha
    · split_ifs
      · exact ih.pow _ _ ha (hP.const _)
      · exact keep_two hP ih ha hb
  mulX c e hc he := by
    obtain ⟨c, fs⟩ := c
    unfold mulExpr
    try dsimp only
    split_ifs
    · exact Post.ok hc
    · split
      · split_ifs
        · exact Post.ok hP.nilG
        · exact Post.ok hc
      · exact (ih.map _ _ hc ((hP.mul _ _).1 he)).bind fun t ht => Post.ok ht
      · have h1 := (hP.bin _ _ _).1 he
        exact (ih.term _ _ _ hc h1.1 h1.2).bind fun t ht => Post.ok ht
      · exact (ih.term _ _ _ hc he (hP.const _)).bind fun t ht => Post.ok ht
  map fs gs hf hg := by
    unfold mulMap
    try dsimp only
    split
    · exact Post.ok hf
    · have h1 := (hP.consG _ _ _).1 hg
      exact (ih.term _ _ _ hf h1.1 h1.2.1).bind fun t ht => ih.map _ _ ht h1.2.2
  term fs b e hf hb he := by
    unfold mulTerm
    try dsimp only
    split_ifs
    · exact Post.ub
    · split
      · have h1 := (hP.bin _ _ _).1 hb
        split_ifs
        · exact (ih.mul _ _ (hP.const _) he).bind fun t ht => ih.term _ _ _ hf h1.1 ht
        · exact ih.ins _ _ _ hf hb he
      · exact ih.ins _ _ _ hf hb he
  ins b e fs hf hb he := by
    cases fs with
    | nil =>
      unfold mulIns
      exact Post.ok ((hP.consG _ _ _).2 ⟨hb, he, hf⟩)
    | cons k p fs =>
      have h1 := (hP.consG _ _ _).1 hf
      unfold mulIns
      split_ifs
      · exact Post.ok ((hP.consG _ _ _).2 ⟨hb, he, hf⟩)
      · exact (ih.ins _ _ _ h1.2.2 hb he).bind fun t ht =>
          Post.ok ((hP.consG _ _ _).2 ⟨h1.1, h1.2.1, ht⟩)
      · refine (ih.add _ _ h1.2.1 he).bind fun s hs => ?_
        split_ifs
        · exact Post.ok h1.2.2
        · exact Post.ok ((hP.consG _ _ _).2 ⟨h1.1, hs, h1.2.2⟩)
  getM c hc := by
    obtain ⟨c, fs⟩ := c
    unfold getMul
    try dsimp only
    split
    · exact Post.ok (hP.const _)
    · split
      · exact Post.ok (hP.const _)
      · have h1 := (hP.consG _ _ _).1 hc
        split_ifs
        · exact ih.pow _ _ h1.1 h1.2.1
        · exact Post.ok ((hP.mul _ _).2 hc)
      · exact Post.ok ((hP.mul _ _).2 hc)
  pow a b ha hb := by
    have hab : P (.bin .pow a b) := (hP.bin _ _ _).2 ⟨ha, hb⟩
    unfold powE
    try dsimp only
    split
    · split
      · split_ifs
        · exact Post.throw
        · split
          · exact Post.ok (hP.const _)
          · exact Post.oof
      · split_ifs
        · exact Post.ok (hP.const _)
        · exact Post.ok ha
        · split
          · have h1 := (hP.bin _ _ _).1 ha
            split_ifs
            · exact Post.ok ((hP.bin _ _ _).2 ⟨h1.1, hP.const _⟩)
            · exact Post.ok hab
          · have h1 := (hP.bin _ _ _).1 ha
            split_ifs
            · exact Post.ok ((hP.bin _ _ _).2 ⟨h1.1, hP.const _⟩)
            · exact Post.ok hab
          · exact Post.ub
          · exact Post.ok hab
    · exact Post.ok hab
  div a b ha hb := by
    unfold divE
    try dsimp only
    split_ifs
    · exact Post.ok ha
    · split
      · split_ifs
        · exact Post.throw
        · exact Post.ok (hP.const _)
      · split_ifs
        · exact Post.ok (hP.const _)
        · exact Post.ok ((hP.bin _ _ _).2 ⟨ha, hb⟩)

theorem keep_all (hP : Inherits P PT PG) : ∀ n, KeepAll A P PT PG n
  | 0 => by
    constructor <;> intros <;> (first | unfold addE | unfold addExpr | unfold getAdd | unfold mulE | unfold mulRest | unfold mulFlat | unfold mulExpr | unfold mulMap | unfold mulTerm | unfold mulIns | unfold getMul | unfold powE | unfold divE) <;> exact Post.oof
  | n + 1 => keep_step hP (keep_all hP n)

theorem keep_neg (hP : Inherits P PT PG) (n : Nat) (a : Cell) (ha : P a) : Post (negE A n a) P := by
  have ih := keep_all (A := A) hP n
  unfold negE
  split
  · exact Post.ok (hP.const _)
  · exact ih.getA _ (negate_keep hP _ ((hP.add _ _).1 ha))
  · exact ih.getM _ ((hP.mul _ _).1 ha)
  · exact ih.mul _ _ (hP.const _) ha

theorem keep_minus (hP : Inherits P PT PG) (n : Nat) (a b : Cell) (ha : P a) (hb : P b) :
    Post (minusE A n a b) P :=
  (keep_neg hP n b hb).bind fun m hm => (keep_all hP n).add a m ha hm

theorem keep_abs (hP : Inherits P PT PG) (a : Cell) (ha : P a) : P (absE a) := by
  unfold absE
  split
  · exact hP.const _
  · exact (hP.un _ _).2 ha

theorem keep_sqrt (hP : Inherits P PT PG) (a : Cell) (ha : P a) : P (sqrtE a) := by
  unfold sqrtE
  split
  · split_ifs
    · exact keep_abs hP _ ((hP.bin _ _ _).1 ha).1
    · exact (hP.un _ _).2 ha
  · exact (hP.un _ _).2 ha

/-! ## Derivatives -/

theorem keep_powRule (hP : Inherits P PT PG) (n : Nat) (f g df dg : Cell) (hf : P f) (hg : P g)
    (hdf : P df) (hdg : P dg) : Post (powRule A n f g df dg) P := by
  have ih := keep_all (A := A) hP n
  unfold powRule
  split
  · exact (keep_minus hP n _ _ (hP.const _) (hP.const _)).bind fun m hm =>
      (ih.pow _ _ hf hm).bind fun p hp => (ih.mul _ _ (hP.const _) hp).bind fun r hr =>
      ih.mul _ _ hr hdf
  · split
    · exact (ih.pow _ _ (hP.const _) hg).bind fun p hp =>
        (ih.mul _ _ ((hP.un _ _).2 (hP.const _)) hp).bind fun r hr => ih.mul _ _ hr hdg
    · exact (keep_minus hP n _ _ hg (hP.const _)).bind fun m hm =>
        (ih.pow _ _ hf hm).bind fun p hp => (ih.mul _ _ hg hdf).bind fun s hs =>
        (ih.mul _ _ ((hP.un _ _).2 hf) hf).bind fun t ht => (ih.mul _ _ ht hdg).bind fun u hu =>
        (ih.add _ _ hs hu).bind fun w hw => ih.mul _ _ hp hw

theorem keep_divRule (hP : Inherits P PT PG) (n : Nat) (f g df dg : Cell) (hf : P f) (hg : P g)
    (hdf : P df) (hdg : P dg) : Post (divRule A n f g df dg) P := by
  have ih := keep_all (A := A) hP n
  unfold divRule
  exact (ih.mul _ _ hdf hg).bind fun s hs => (ih.mul _ _ hf hdg).bind fun t ht =>
    (keep_minus hP n _ _ hs ht).bind fun u hu => (ih.pow _ _ hg (hP.const _)).bind fun p hp =>
    ih.div _ _ hu hp

theorem keep_atan2Rule (hP : Inherits P PT PG) (n : Nat) (f g df dg : Cell) (hf : P f) (hg : P g)
    (hdf : P df) (hdg : P dg) : Post (atan2Rule A n f g df dg) P := by
  have ih := keep_all (A := A) hP n
  unfold atan2Rule
  exact (ih.mul _ _ hg hdf).bind fun s hs => (ih.mul _ _ hf hdg).bind fun t ht =>
    (keep_minus hP n _ _ hs ht).bind fun u hu => (ih.pow _ _ hf (hP.const _)).bind fun p hp =>
    (ih.pow _ _ hg (hP.const _)).bind fun q hq => (ih.add _ _ hp hq).bind fun w hw =>
    ih.div _ _ hu hw

theorem keep_unRule (hP : Inherits P PT PG) (n : Nat) (f : Fn1) (a da : Cell) (ha : P a)
    (hda : P da) : Post (unRule A n f a da) P := by
  have ih := keep_all (A := A) hP n
  have hu : ∀ f, P (.un f a) := fun f => (hP.un f a).2 ha
  have hc := hP.const
  unfold unRule
  split
  · exact ih.div _ _ hda ha
  · exact ih.mul _ _ (hu _) hda
  · exact (ih.mul _ _ (hc _) (keep_sqrt hP a ha)).bind fun s hs => (ih.div _ _ (hc _) hs).bind
      fun q hq => ih.mul _ _ hq hda
  · exact ih.mul _ _ (hu _) hda
  · exact (keep_neg hP n _ (hu _)).bind fun s hs => ih.mul _ _ hs hda
  · exact (ih.pow _ _ (hu _) (hc _)).bind fun p hp => (ih.div _ _ (hc _) hp).bind fun q hq =>
      ih.mul _ _ hq hda
  · exact (ih.pow _ _ ha (hc _)).bind fun p hp => (keep_minus hP n _ _ (hc _) hp).bind fun s hs =>
      (ih.div _ _ (hc _) (keep_sqrt hP s hs)).bind fun q hq => ih.mul _ _ hq hda
  · exact (ih.pow _ _ ha (hc _)).bind fun p hp => (keep_minus hP n _ _ (hc _) hp).bind fun s hs =>
      (ih.div _ _ (hc _) (keep_sqrt hP s hs)).bind fun q hq => ih.mul _ _ hq hda
  · exact (ih.pow _ _ ha (hc _)).bind fun p hp => (ih.add _ _ (hc _) hp).bind fun s hs =>
      (ih.div _ _ (hc _) hs).bind fun q hq => ih.mul _ _ hq hda
  · exact ih.mul _ _ (hu _) hda
  · exact ih.mul _ _ (hu _) hda
  · exact (ih.pow _ _ (hu _) (hc _)).bind fun p hp => (ih.div _ _ (hc _) hp).bind fun q hq =>
      ih.mul _ _ hq hda
  · exact Post.throw

mutual
theorem keep_diff (hP : Inherits P PT PG) (n x : Nat) : ∀ e, P e → Post (diffC A n x e) P
  | .const _, _ => Post.ok (hP.const _)
  | .rconst .., _ => Post.ok (hP.const _)
  | .var _, _ => Post.ok (hP.const _)
  | .add _ ts, h => keep_diffT hP n x ts _ (hP.const _) ((hP.add _ _).1 h)
  | .mul c fs, h => by
    have h1 := (hP.mul _ _).1 h
    have ih := keep_all (A := A) hP n
    simp only [diffC]
    exact (ih.getM (1, fs) h1).bind fun e he =>
      (keep_diffG hP n x fs e _ he (hP.const _) h1).bind fun s hs => ih.mul _ _ (hP.const _) hs
  | .un f a, h => by
    have h1 := (hP.un _ _).1 h
    simp only [diffC]
    split_ifs
    · exact Post.throw
    · exact Post.ok (hP.const _)
    · exact (keep_diff hP n x a h1).bind fun d hd => keep_unRule hP n f a d h1 hd
  | .bin f a b, h => by
    have h1 := (hP.bin _ _ _).1 h
    cases f <;> simp only [diffC]
    · exact (keep_diff hP n x a h1.1).bind fun d hd => (keep_diff hP n x b h1.2).bind fun e he =>
        keep_divRule hP n a b d e h1.1 h1.2 hd he
    · exact (keep_diff hP n x a h1.1).bind fun d hd => (keep_diff hP n x b h1.2).bind fun e he =>
        keep_powRule hP n a b d e h1.1 h1.2 hd he
    · exact (keep_diff hP n x a h1.1).bind fun d hd => (keep_diff hP n x b h1.2).bind fun e he =>
        keep_atan2Rule hP n a b d e h1.1 h1.2 hd he
    · split_ifs
      · exact Post.throw
      · exact Post.ok (hP.const _)
    · split_ifs
      · exact Post.throw
      · exact Post.ok (hP.const _)
  | .ite c a b, _ => by
    simp only [diffC]
    split_ifs
    · exact Post.throw
    · exact Post.ok (hP.const _)
  | .nan, _ => Post.throw
  | .uf _ vs, _ => by
    simp only [diffC]
    split_ifs
    · exact Post.throw
    · exact Post.ok (hP.const _)
theorem keep_diffT (hP : Inherits P PT PG) (n x : Nat) : ∀ ts ret, P ret → PT ts →
    Post (diffT A n x ret ts) P
  | .nil, ret, h, _ => Post.ok h
  | .cons e q ts, ret, h, ht => by
    have h1 := (hP.consT _ _ _).1 ht
    have ih := keep_all (A := A) hP n
    simp only [diffT]
    exact (keep_diff hP n x e h1.1).bind fun d hd => (ih.mul _ _ (hP.const _) hd).bind fun t ht =>
      (ih.add _ _ h ht).bind fun r hr => keep_diffT hP n x ts r hr h1.2
theorem keep_diffG (hP : Inherits P PT PG) (n x : Nat) : ∀ fs e ret, P e → P ret → PG fs →
    Post (diffG A n x e ret fs) P
  | .nil, e, ret, _, h, _ => Post.ok h
  | .cons b g fs, e, ret, he, h, hf => by
    have h1 := (hP.consG _ _ _).1 hf
    have ih := keep_all (A := A) hP n
    simp only [diffG]
    exact (keep_diff hP n x b h1.1).bind fun db hdb => (keep_diff hP n x g h1.2.1).bind fun dg hdg =>
      (keep_powRule hP n b g db dg h1.1 h1.2.1 hdb hdg).bind fun d hd =>
      (ih.mul _ _ he hd).bind fun t ht => (keep_neg hP n g h1.2.1).bind fun m hm =>
      (ih.pow _ _ h1.1 hm).bind fun p hp => (ih.mul _ _ ht hp).bind fun u hu =>
      (ih.add _ _ h hu).bind fun r hr => keep_diffG hP n x fs e r he hr h1.2.2
end

end

end Verif.Proof
