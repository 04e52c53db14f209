import Verif.Proof.OptimumPsi

/-! # Lemmas on Minimize at the level of a context: the variables it introduces -/

namespace Verif.Proof
open Verif Verif.Model Verif.Spec Verif.Props

theorem setBox_setBox (c : Ctx) (b b' : Box) : (c.setBox b).setBox b' = c.setBox b' := by
  unfold Ctx.setBox
  simp

theorem setBox_self {c : Ctx} (h : CtxWf c) : c.setBox c.box = c := by
  have hne : c.boxes.vec ≠ [] := by
    have := h.boxes.pos
    intro he; simp [he] at this
  unfold Ctx.setBox Ctx.box
  rw [List.getLastD_eq_getLast?, List.getLast?_eq_getLast_of_ne_nil hne]
  simp [List.dropLast_append_getLast hne]

/-- Constructing `n` continuous variables. -/
theorem poses_news {cfg : CCfg} : ∀ (n : Nat) {k : Books} {c : Ctx}, Poses cfg k c →
    ∃ k', Poses cfg k' { c with sat := { c.sat with abs :=
        { c.sat.abs with next := c.sat.abs.next + n } } } ∧
      k'.levels = k.levels ∧ k'.used = k.used ∧ k'.quant = k.quant ∧ k'.built = k.built ∧
      (∀ v ∈ k.made, v ∈ k'.made) ∧
      ∀ i, i < n → (⟨c.sat.abs.next + i, .continuous⟩ : Variable) ∈ k'.made
  | 0, k, c, h => ⟨k, h, rfl, rfl, rfl, rfl, fun _ h => h, by simp⟩
  | n + 1, k, c, h => by
    obtain ⟨k', h1, h2, h3, h4, h5, h6, h7⟩ := poses_news n h
    refine ⟨_, .step (cmd := .newVar .continuous) h1 trivial rfl, h2, h3, h4, h5,
      fun v hv => List.mem_cons_of_mem _ (h6 v hv), fun i hi => ?_⟩
    rcases Nat.lt_succ_iff_lt_or_eq.mp hi with hi | rfl
    · exact List.mem_cons_of_mem _ (h7 i hi)
    · exact List.mem_cons_self

/-- Declaring new variables. -/
theorem poses_declares {cfg : CCfg} : ∀ (zs : List Variable) {k : Books} {c : Ctx}, Poses cfg k c →
    CtxWf c → zs.Nodup → (∀ z ∈ zs, z ∈ k.made ∧ z ∉ k.used ∧ ¬ k.top.Declared z) → ¬ k.built →
    ∃ k', Poses cfg k' (c.setBox (zs.foldl addToBox c.box)) ∧ k'.quant = k.quant ∧
      k'.top.asserted = k.top.asserted ∧ k'.built = k.built ∧
      ∀ p, p ∈ k'.top.dom ↔ p ∈ k.top.dom ∨ p.1 ∈ zs ∧ p.2 = newItv p.1.type
  | [], k, c, h, hw, _, _, _ => ⟨k, by rw [List.foldl_nil, setBox_self hw]; exact h, rfl, rfl, rfl,
      by simp⟩
  | z :: zs, k, c, h, hw, hn, hz, hb => by
    obtain ⟨z1, z2, z3⟩ := hz z (by simp)
    have hs : stepCmd cfg c (.declare z false) = .ok ([], c.setBox (addToBox c.box z)) := rfl
    have hnd : z ∉ k.top.dom.map Prod.fst := by
      intro hm
      obtain ⟨p, hp, rfl⟩ := List.mem_map.mp hm
      exact z3 ⟨p.2, hp⟩
    have hk : (k.step c.sat.abs.next (.declare z false)).top =
        { k.top with dom := (z, newItv z.type) :: k.top.dom } := by
      show ({ k.top with dom := if z ∈ k.top.dom.map Prod.fst then k.top.dom
        else (z, newItv z.type) :: k.top.dom } : Problem) = _
      rw [if_neg hnd]
    have hw' : CtxWf (c.setBox (addToBox c.box z)) := (ctxExt_setBox hw _).wf
    rw [List.nodup_cons] at hn
    obtain ⟨k', h1, h2, h3, h4, h5⟩ := poses_declares zs (.step (cmd := .declare z false) h ⟨z1, .inr ⟨z2, hb⟩⟩ hs) hw' hn.2
      (fun y hy => by
        obtain ⟨y1, y2, y3⟩ := hz y (by simp [hy])
        have hne : y ≠ z := fun e => hn.1 (e ▸ hy)
        refine ⟨y1, by simp [Books.step, hne, y2], ?_⟩
        rw [hk]
        rintro ⟨iv, hi⟩
        rcases List.mem_cons.mp hi with hi | hi
        · cases hi; exact hne rfl
        · exact y3 ⟨iv, hi⟩) hb
    rw [setBox_setBox, box_setBox] at h1
    rw [hk] at h3 h5
    refine ⟨k', h1, h2, h3, h4, fun p => ?_⟩
    rw [h5 p]
    simp only [List.mem_cons]
    constructor
    · rintro ((rfl | h) | h)
      · exact .inr ⟨.inl rfl, rfl⟩
      · exact .inl h
      · exact .inr ⟨.inr h.1, h.2⟩
    · rintro (h | ⟨rfl | h, h'⟩)
      · exact .inl (.inr h)
      · exact .inl (.inl (Prod.ext rfl h'))
      · exact .inr ⟨h, h'⟩

theorem psi_eqs {I : Interp} {next : Nat} {b : Box} {stack : List Fml} {objs : List Expr}
    {psi : Fml} {zs : List Variable} {next' : Nat}
    (h : minimizePsi next b stack objs = .ok (psi, zs, next')) {xs s}
    (hx : PsiShape next b stack objs psi zs next' xs s) {τ : Valuation} (hτ : holds I τ psi) :
    ∀ i f, objs[i]? = some f → τ ⟨next + xs.length + i, .continuous⟩ = eval I τ f := by
  have hn := hx.nnew
  unfold minimizePsi at h
  obtain ⟨r, hr, h⟩ := bindR_ok h
  split_ifs at h with hb hv
  simp only [Run.ok.injEq, Prod.mk.injEq] at h
  obtain ⟨rfl, rfl, rfl⟩ := h
  rw [holds_andF, (objectives_holds objs _ _ _).1] at hτ
  have e : r.vars.length = xs.length := by omega
  rw [← e]
  exact hτ.1.2

end Verif.Proof
