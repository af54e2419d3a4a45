import Verif.MixModel
import Verif.GaussProps3

/-!
# Helper lemmas for Gaussian mixtures
-/

namespace Verif.Mix
open Matrix Gauss Spec MeasureTheory

/-! ### What mixtures denote -/

/-- A component over the variables `vars`, after any history, with log potential `L`. -/
structure Comp (vars : List Var) (c : AnyG) (L : (Var → ℝ) → ℝ) : Prop where
  made : Made c.2
  den : Denotes c.2 L
  vars : c.2.vars = vars

/-- A mixture whose components have the variables of the mixture and the log potentials `Ls`. -/
structure IsMix (M : Mix) (Ls : List ((Var → ℝ) → ℝ)) : Prop where
  ne : M.comps ≠ []
  comps : List.Forall₂ (Comp M.vars) M.comps Ls

/-- The sum of the potentials with the logarithms `Ls`. -/
noncomputable def mixFn (Ls : List ((Var → ℝ) → ℝ)) (x : Var → ℝ) : ℝ := (Ls.map fun L => Real.exp (L x)).sum

/-- The potential of the mixture is `F`, and its log potential is the logarithm, in whatever order the
variables are given. -/
def Pot (M : Mix) (F : (Var → ℝ) → ℝ) : Prop := ∀ x : Var → ℝ,
  M.potential (M.vars.map x) = .ok (F x) ∧ M.logPotential (M.vars.map x) = .ok (Real.log (F x)) ∧
    ∀ vrs : List Var, vrs.Perm M.vars → M.logPotential (vrs.map x) (some vrs) = .ok (Real.log (F x))

theorem Comp.good {vars : List Var} {c : AnyG} {L : (Var → ℝ) → ℝ} (h : Comp vars c L) : Good c.2 :=
  h.den.good h.made.inv

theorem Comp.nodup {vars : List Var} {c : AnyG} {L : (Var → ℝ) → ℝ} (h : Comp vars c L) : vars.Nodup :=
  h.vars ▸ h.good.nodup

theorem mixFn_pos {Ls : List ((Var → ℝ) → ℝ)} (h : Ls ≠ []) (x : Var → ℝ) : 0 < mixFn Ls x := by
  unfold mixFn
  refine List.sum_pos _ (fun y hy => ?_) (by simpa using h)
  obtain ⟨L, -, rfl⟩ := List.mem_map.1 hy
  exact Real.exp_pos _

theorem IsMix.ls_ne {M : Mix} {Ls : List ((Var → ℝ) → ℝ)} (h : IsMix M Ls) : Ls ≠ [] := by
  have h1 := h.comps
  have h2 := h.ne
  intro e
  rw [e] at h1
  cases h1' : M.comps with
  | nil => exact h2 h1'
  | cons a l => rw [h1'] at h1; cases h1

theorem IsMix.nodup {M : Mix} {Ls : List ((Var → ℝ) → ℝ)} (h : IsMix M Ls) : M.vars.Nodup := by
  have h1 := h.comps
  cases h1' : M.comps with
  | nil => exact absurd h1' h.ne
  | cons a l =>
    rw [h1'] at h1
    cases h1 with
    | cons h2 _ => exact h2.nodup

/-! ### Lists -/

theorem mapM_forall₂ {α β γ : Type} {R : α → β → Prop} {S : γ → β → Prop} {f : α → Py γ} {l : List α} {l' : List β}
    (h : List.Forall₂ R l l') (hf : ∀ a ∈ l, ∀ b, R a b → ∃ c, f a = .ok c ∧ S c b) :
    ∃ cs, l.mapM f = .ok cs ∧ List.Forall₂ S cs l' := by
  induction h with
  | nil => exact ⟨[], rfl, .nil⟩
  | cons h1 h2 ih =>
    obtain ⟨c, hc, hs⟩ := hf _ (List.mem_cons_self ..) _ h1
    obtain ⟨cs, hcs, hss⟩ := ih fun a ha b => hf a (List.mem_cons_of_mem _ ha) b
    refine ⟨c :: cs, ?_, .cons hs hss⟩
    rw [List.mapM_cons, hc]
    dsimp only [bind, Except.bind]
    rw [hcs]
    rfl

theorem copyG_ok {vars : List Var} {c : AnyG} {L : (Var → ℝ) → ℝ} (h : Comp vars c L) :
    ∃ k, copyG c = .ok k ∧ Comp vars k L := by
  obtain ⟨k, hk, dk, ek⟩ := (C38_copy_weight h.made h.den).1
  refine ⟨⟨c.1, k⟩, ?_, .copy h.made hk, dk, ek.trans h.vars⟩
  unfold copyG
  rw [hk]
  rfl

theorem make_ok {gs : List AnyG} {Ls : List ((Var → ℝ) → ℝ)} {vars : List Var} (hne : gs ≠ [])
    (h : List.Forall₂ (Comp vars) gs Ls) (cm : ℕ := 0) :
    ∃ M, make gs cm = .ok M ∧ IsMix M Ls ∧ M.vars = vars ∧ M.cancelMethod = cm ∧ M.comps.length = gs.length := by
  cases h with
  | nil => exact absurd rfl hne
  | @cons g L gs Ls h1 h2 =>
    obtain ⟨cs, hcs, hs⟩ := mapM_forall₂ (S := Comp vars) (.cons h1 h2) fun a _ b hb => copyG_ok hb
    have e1 : ¬ ∃ c ∈ cs, c.2.vars ≠ g.2.vars := by
      rintro ⟨c, hc, hv⟩
      obtain ⟨i, hi, rfl⟩ := List.mem_iff_getElem.1 hc
      have := List.forall₂_iff_get.1 hs
      have h3 := this.2 i hi (this.1 ▸ hi)
      exact hv (h3.vars.trans h1.vars.symm)
    refine ⟨⟨g.2.vars, cs, cm⟩, ?_, ⟨?_, ?_⟩, h1.vars, rfl, ?_⟩
    · unfold make
      dsimp only
      rw [hcs]
      dsimp only [bind, Except.bind]
      rw [if_neg e1, if_neg (not_not.2 h1.good.nodup)]
    · intro e
      dsimp only at e
      subst e
      cases hs
    · dsimp only
      rw [h1.vars]
      exact hs
    · have := hs.length_eq.trans (List.Forall₂.cons h1 h2).length_eq.symm
      exact this

/-! ### Potentials -/

theorem foldl_potential {f : AnyG → Py ℝ} {cs : List AnyG} {ys : List ℝ} (h : List.Forall₂ (fun c y => f c = .ok y) cs ys)
    (t : ℝ) : cs.foldlM (fun t c => do
      let p ← f c
      .ok (t + p)) t = .ok (t + ys.sum) := by
  induction h generalizing t with
  | nil => simp only [List.foldlM_nil, List.sum_nil, add_zero]; rfl
  | cons h1 _ ih =>
    rw [List.foldlM_cons, h1]
    dsimp only [bind, Except.bind]
    rw [List.sum_cons, ← add_assoc]
    exact ih _

theorem IsMix.pot {M : Mix} {Ls : List ((Var → ℝ) → ℝ)} (h : IsMix M Ls) : Pot M (mixFn Ls) := by
  intro x
  have key : ∀ (y : List ℝ) (vrs : Option (List Var)), (∀ c L, Comp M.vars c L → c.2.logPotential y vrs = .ok (L x)) →
      M.logPotential y vrs = .ok (Real.log (mixFn Ls x)) := by
    intro y vrs hy
    obtain ⟨cs, hcs, hs⟩ := mapM_forall₂ (f := fun c : AnyG => c.2.logPotential y vrs) (S := fun r L => r = L x) h.comps
      fun c _ L hc => ⟨_, hy c L hc, rfl⟩
    unfold Mix.logPotential
    rw [hcs]
    have e : cs = Ls.map fun L => L x := by
      clear hcs h
      induction hs with
      | nil => rfl
      | cons h1 _ ih => rw [h1, ih, List.map_cons]
    dsimp only [bind, Except.bind]
    rw [e, lse, mixFn, List.map_map]
    rfl
  refine ⟨?_, key _ _ ?_, fun vrs hp => key _ _ ?_⟩
  · unfold Mix.potential
    rw [foldl_potential (f := fun c : AnyG => c.2.potential (M.vars.map x)) (ys := Ls.map fun L => Real.exp (L x)), zero_add]
    · rfl
    · rw [List.forall₂_map_right_iff]
      refine h.comps.imp fun c L hc => ?_
      rw [← hc.vars]
      exact (hc.den x).2.1
  · intro c L hc
    rw [← hc.vars]
    exact (hc.den x).1
  · intro c L hc
    exact (hc.den x).2.2 vrs (by rw [hc.vars]; exact hp)

theorem Pot.unique {M : Mix} {F G : (Var → ℝ) → ℝ} (h1 : Pot M F) (h2 : Pot M G) : F = G := by
  funext x
  have := (h1 x).1.symm.trans (h2 x).1
  injection this

theorem Pot.congr {M : Mix} {F G : (Var → ℝ) → ℝ} (h1 : Pot M F) (h2 : ∀ x, F x = G x) : Pot M G := by
  have : F = G := funext h2
  exact this ▸ h1

/-! ### Products and quotients -/

theorem op_comp {op : ℝ → ℝ → ℝ} {s : ℝ} (hop : op = (· + ·) ∧ s = 1 ∨ op = (· - ·) ∧ s = -1) {va vb : List Var}
    {a b : AnyG} {La Lb : (Var → ℝ) → ℝ} (ha : Comp va a La) (hb : Comp vb b Lb) :
    ∃ a' b' r, absorbOrCancel op a.2 b.2 = .ok (a', b', r) ∧ Comp va ⟨_, a'⟩ La ∧ Comp vb ⟨_, b'⟩ Lb ∧
      Comp (opVars va vb) ⟨_, r⟩ fun x => La x + s * Lb x := by
  have h := op_spec (op := op) (s := s) (by rcases hop with ⟨rfl, rfl⟩ | ⟨rfl, rfl⟩ <;> intros <;> ring)
    ha.made hb.made ha.den hb.den
  obtain ⟨a', b', r, h1, h2, -, ⟨h4, h5⟩, h6, h7⟩ := h
  have hr : r.vars = opVars a.2.vars b.2.vars := by
    have h1' := h1
    unfold absorbOrCancel at h1'
    obtain ⟨⟨_, _⟩, -, h1'⟩ := py_bind_eq_ok.1 h1'
    obtain ⟨⟨_, _⟩, -, h1'⟩ := py_bind_eq_ok.1 h1'
    obtain ⟨_, -, h1'⟩ := py_bind_eq_ok.1 h1'
    obtain ⟨_, -, h1'⟩ := py_bind_eq_ok.1 h1'
    obtain ⟨r', hr', h1'⟩ := py_bind_eq_ok.1 h1'
    cases h1'
    obtain ⟨-, -, rfl⟩ := mkCan_eq_ok hr'
    rfl
  refine ⟨a', b', r, h1, ⟨?_, h4, h5.trans ha.vars⟩, ⟨?_, h6, h7.trans hb.vars⟩, ?_, h2, ?_⟩
  · rcases hop with ⟨rfl, -⟩ | ⟨rfl, -⟩
    · exact .multiply_left ha.made hb.made h1
    · exact .divide_left ha.made hb.made h1
  · rcases hop with ⟨rfl, -⟩ | ⟨rfl, -⟩
    · exact .multiply_right ha.made hb.made h1
    · exact .divide_right ha.made hb.made h1
  · rcases hop with ⟨rfl, -⟩ | ⟨rfl, -⟩
    · exact .multiply ha.made hb.made h1
    · exact .divide ha.made hb.made h1
  · rw [← ha.vars, ← hb.vars]
    exact hr

theorem opEach_ok {op : ℝ → ℝ → ℝ} {s : ℝ} (hop : op = (· + ·) ∧ s = 1 ∨ op = (· - ·) ∧ s = -1) {va vb : List Var}
    {as : List AnyG} {Las : List ((Var → ℝ) → ℝ)} (ha : List.Forall₂ (Comp va) as Las) {b : AnyG} {Lb : (Var → ℝ) → ℝ}
    (hb : Comp vb b Lb) :
    ∃ as' b' rs, opEach op as b = .ok (as', b', rs) ∧ List.Forall₂ (Comp va) as' Las ∧ Comp vb b' Lb ∧
      List.Forall₂ (Comp (opVars va vb)) rs (Las.map fun La x => La x + s * Lb x) := by
  induction ha generalizing b with
  | nil => exact ⟨_, _, _, rfl, .nil, hb, .nil⟩
  | cons h1 _ ih =>
    obtain ⟨a', b', r, e1, k1, k2, k3⟩ := op_comp hop h1 hb
    obtain ⟨as', b'', rs, e2, k4, k5, k6⟩ := ih k2
    refine ⟨_, _, _, ?_, .cons k1 k4, k5, .cons k3 k6⟩
    rw [opEach, e1]
    dsimp only [bind, Except.bind]
    rw [e2]

theorem mulRow_ok {va vb : List Var} {a : AnyG} {La : (Var → ℝ) → ℝ} (ha : Comp va a La)
    {bs : List AnyG} {Lbs : List ((Var → ℝ) → ℝ)} (hb : List.Forall₂ (Comp vb) bs Lbs) :
    ∃ a' bs' rs, mulRow a bs = .ok (a', bs', rs) ∧ Comp va a' La ∧ List.Forall₂ (Comp vb) bs' Lbs ∧
      List.Forall₂ (Comp (opVars va vb)) rs (Lbs.map fun Lb x => La x + Lb x) := by
  induction hb generalizing a with
  | nil => exact ⟨_, _, _, rfl, ha, .nil, .nil⟩
  | cons h1 _ ih =>
    obtain ⟨a', b', r, e1, k1, k2, k3⟩ := op_comp (.inl ⟨rfl, rfl⟩) ha h1
    obtain ⟨a'', bs', rs, e2, k4, k5, k6⟩ := ih k1
    simp only [one_mul] at k3
    refine ⟨_, _, _, ?_, k4, .cons k2 k5, .cons k3 k6⟩
    rw [mulRow]
    unfold Gauss.multiply
    rw [e1]
    dsimp only [bind, Except.bind]
    rw [e2]

theorem mulAll_ok {va vb : List Var} {as : List AnyG} {Las : List ((Var → ℝ) → ℝ)}
    (ha : List.Forall₂ (Comp va) as Las) {bs : List AnyG} {Lbs : List ((Var → ℝ) → ℝ)}
    (hb : List.Forall₂ (Comp vb) bs Lbs) :
    ∃ as' bs' rs, mulAll as bs = .ok (as', bs', rs) ∧ List.Forall₂ (Comp va) as' Las ∧
      List.Forall₂ (Comp vb) bs' Lbs ∧
      List.Forall₂ (Comp (opVars va vb)) rs (Las.flatMap fun La => Lbs.map fun Lb x => La x + Lb x) := by
  induction ha generalizing bs with
  | nil => exact ⟨_, _, _, rfl, .nil, hb, .nil⟩
  | cons h1 _ ih =>
    obtain ⟨a', bs', rs, e1, k1, k2, k3⟩ := mulRow_ok h1 hb
    obtain ⟨as', bs'', rs', e2, k4, k5, k6⟩ := ih k2
    refine ⟨_, _, rs ++ rs', ?_, .cons k1 k4, k5, ?_⟩
    · rw [mulAll, e1]
      dsimp only [bind, Except.bind]
      rw [e2]
    · rw [List.flatMap_cons]
      exact List.rel_append k3 k6

theorem sum_flatMap {α : Type} (l : List α) (f : α → List ℝ) : (l.flatMap f).sum = (l.map fun a => (f a).sum).sum := by
  induction l with
  | nil => rfl
  | cons a l ih => rw [List.flatMap_cons, List.sum_append, ih, List.map_cons, List.sum_cons]

theorem mixFn_mul (Las Lbs : List ((Var → ℝ) → ℝ)) (x : Var → ℝ) :
    mixFn (Las.flatMap fun La => Lbs.map fun Lb x => La x + Lb x) x = mixFn Las x * mixFn Lbs x := by
  unfold mixFn
  rw [List.map_flatMap, sum_flatMap, ← List.sum_map_mul_right]
  congr 1
  refine List.map_congr_left fun La _ => ?_
  rw [List.map_map, ← List.sum_map_mul_left]
  congr 1
  refine List.map_congr_left fun Lb _ => ?_
  simp only [Function.comp, Real.exp_add]

theorem mixFn_op (Las : List ((Var → ℝ) → ℝ)) (Lb : (Var → ℝ) → ℝ) (s : ℝ) (x : Var → ℝ) :
    mixFn (Las.map fun La x => La x + s * Lb x) x = mixFn Las x * Real.exp (s * Lb x) := by
  unfold mixFn
  rw [List.map_map, ← List.sum_map_mul_right]
  congr 1
  refine List.map_congr_left fun La _ => ?_
  simp only [Function.comp, Real.exp_add]

end Verif.Mix
