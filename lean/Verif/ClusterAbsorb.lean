import Verif.ClusterDenseExamples

/-!
# Which clusters are nested (C100)

`_absorb_subset_factors` is documented to absorb every factor whose scope is inside that of another factor.
-/

namespace Verif.CG
open Spec (override Asg)
variable {F V G D : Type} {ops : Ops F V G}

/-- The scope `a` is strictly inside the scope `b`. -/
def Inside (a b : List Var) : Prop := (∀ v ∈ a, v ∈ b) ∧ ∃ v ∈ b, v ∉ a

theorem Inside.congr {a a' b b' : List Var} (ha : ∀ v, v ∈ a ↔ v ∈ a') (hb : ∀ v, v ∈ b ↔ v ∈ b') (h : Inside a b) :
    Inside a' b' :=
  ⟨fun v hv => (hb v).1 (h.1 v ((ha v).2 hv)), by
    obtain ⟨v, h1, h2⟩ := h.2
    exact ⟨v, (hb v).1 h1, fun h => h2 ((ha v).2 h)⟩⟩

theorem Inside.irrefl {a b : List Var} (h : ∀ v, v ∈ a ↔ v ∈ b) : ¬ Inside a b := by
  rintro ⟨_, v, h1, h2⟩
  exact h2 ((h v).2 h1)

/-- The inner loop: the mask grows, the scope stays, what remains unmasked is not inside, and the factor is only
marked if something was. -/
theorem absorbInner_nested (L : Laws ops D) {factors : List F} (hok : ∀ f ∈ factors, L.Ok f) {e : F × Nat}
    (he : e ∈ factors.zipIdx) {mask : Nat → Bool} {s : F × (Nat → Bool)}
    (h : absorbInner ops factors e.2 e.1 mask = .ok s) :
    L.Ok s.1 ∧ (∀ v, v ∈ ops.vars s.1 ↔ v ∈ ops.vars e.1) ∧ (∀ k, mask k = true → s.2 k = true) ∧
    (∀ b ∈ factors.zipIdx, s.2 b.2 = false → ¬ Inside (ops.vars b.1) (ops.vars e.1)) ∧
    (s.2 e.2 = true → mask e.2 = true ∨ ∃ a ∈ factors, Inside (ops.vars a) (ops.vars e.1)) := by
  have hz : (factors.zipIdx.map Prod.snd).Nodup := by
    rw [List.zipIdx_map_snd]; exact List.nodup_range'
  unfold absorbInner at h
  refine foldlM_inv (fun l s => L.Ok s.1 ∧ (∀ v, v ∈ ops.vars s.1 ↔ v ∈ ops.vars e.1) ∧ (∀ k, mask k = true → s.2 k = true) ∧
    (∀ b ∈ l, s.2 b.2 = false → ¬ Inside (ops.vars b.1) (ops.vars e.1)) ∧
    (s.2 e.2 = true → mask e.2 = true ∨ ∃ a ∈ factors, Inside (ops.vars a) (ops.vars e.1))) ?_ ?_ h
  · exact ⟨hok _ (List.fst_mem_of_mem_zipIdx he), fun _ => Iff.rfl, fun _ h => h, by simp, Or.inl⟩
  · rintro l b l' s s' hL ⟨h1, h2, h3, h4, h5⟩ hs
    have hb : b ∈ factors.zipIdx := by rw [hL]; simp
    split at hs
    · rename_i hc
      obtain ⟨hne, hmask, hsub⟩ := hc
      obtain ⟨p, hp, hs⟩ := py_bind_eq_ok.1 hs
      simp only [Except.ok.injEq] at hs
      subst hs
      have hin : Inside (ops.vars b.1) (ops.vars e.1) := Inside.congr (fun _ => Iff.rfl) h2 (strictSubset_iff.1 hsub)
      obtain ⟨m1, m2, _⟩ := L.mul h1 (hok _ (List.fst_mem_of_mem_zipIdx hb)) hp
      have hmono : ∀ k, s.2 k = true → Function.update (Function.update s.2 b.2 true) e.2 true k = true := by
        intro k hk
        by_cases k1 : k = e.2
        · subst k1; simp
        · rw [Function.update_of_ne k1]
          by_cases k2 : k = b.2
          · subst k2; simp
          · rw [Function.update_of_ne k2]; exact hk
      refine ⟨m1, fun v => ?_, fun k hk => hmono k (h3 k hk), ?_, fun _ => Or.inr ⟨b.1, List.fst_mem_of_mem_zipIdx hb, hin⟩⟩
      · rw [m2, h2]
        exact ⟨fun h => h.elim id (hin.1 v), Or.inl⟩
      · intro c hc hm
        rcases List.mem_append.1 hc with hc | hc
        · refine h4 c hc ?_
          by_contra hx
          exact absurd (hmono c.2 (by simpa using hx)) (by dsimp only at hm; rw [hm]; simp)
        · obtain rfl := List.mem_singleton.1 hc
          exfalso
          dsimp only at hm
          rw [Function.update_of_ne (Ne.symm hne), Function.update_self] at hm
          cases hm
    · rename_i hc
      simp only [Except.ok.injEq] at hs
      subst hs
      refine ⟨h1, h2, h3, fun c hcm hm => ?_, h5⟩
      rcases List.mem_append.1 hcm with hcm | hcm
      · exact h4 c hcm hm
      · obtain rfl := List.mem_singleton.1 hcm
        intro hin
        by_cases hce : e.2 = c.2
        · have := List.inj_on_of_nodup_map hz he hb hce
          rw [this] at hin
          exact Inside.irrefl (fun _ => Iff.rfl) hin
        · exact hc ⟨hce, hm, strictSubset_iff.2 (Inside.congr (fun _ => Iff.rfl) (fun v => (h2 v).symm) hin)⟩

theorem absorb_nested (L : Laws ops D) {factors r : List F} (hok : ∀ f ∈ factors, L.Ok f)
    (h : absorb ops factors = .ok r) {f g : F} (hf : f ∈ r) (hg : g ∈ r) (hfg : Inside (ops.vars f) (ops.vars g)) :
    ∃ a ∈ factors, ∃ b ∈ factors, ∃ c ∈ factors, Inside (ops.vars a) (ops.vars b) ∧ Inside (ops.vars b) (ops.vars c) ∧
      (∀ v, v ∈ ops.vars f ↔ v ∈ ops.vars b) ∧ ∀ v, v ∈ ops.vars g ↔ v ∈ ops.vars c := by
  unfold absorb at h
  obtain ⟨s, h1, h⟩ := py_bind_eq_ok.1 h
  obtain ⟨_, h2, h⟩ := py_bind_eq_ok.1 h
  simp only [Except.ok.injEq] at h
  have inv : (∀ f ∈ s.1, ∃ e ∈ factors, (∀ v, v ∈ ops.vars f ↔ v ∈ ops.vars e) ∧
        (∃ a ∈ factors, Inside (ops.vars a) (ops.vars e)) ∧
        ∀ b ∈ factors.zipIdx, s.2 b.2 = false → ¬ Inside (ops.vars b.1) (ops.vars e)) ∧
      ∀ e ∈ factors.zipIdx, s.2 e.2 = false → ∀ b ∈ factors.zipIdx, s.2 b.2 = false →
        ¬ Inside (ops.vars b.1) (ops.vars e.1) := by
    refine foldlM_inv (fun l s => (∀ f ∈ s.1, ∃ e ∈ factors, (∀ v, v ∈ ops.vars f ↔ v ∈ ops.vars e) ∧
        (∃ a ∈ factors, Inside (ops.vars a) (ops.vars e)) ∧
        ∀ b ∈ factors.zipIdx, s.2 b.2 = false → ¬ Inside (ops.vars b.1) (ops.vars e)) ∧
      ∀ e ∈ l, s.2 e.2 = false → ∀ b ∈ factors.zipIdx, s.2 b.2 = false →
        ¬ Inside (ops.vars b.1) (ops.vars e.1)) ?_ ?_ h1
    · simp
    · rintro l e l' s s' hL ⟨i1, i2⟩ hs
      have he : e ∈ factors.zipIdx := by rw [hL]; simp
      split at hs
      · rename_i hmask
        obtain ⟨t, ht, hs⟩ := py_bind_eq_ok.1 hs
        simp only [Except.ok.injEq] at hs
        subst hs
        obtain ⟨_, t2, t3, t4, t5⟩ := absorbInner_nested L hok he ht
        have hback : ∀ k, t.2 k = false → s.2 k = false := fun k hk => by
          by_contra hx
          rw [t3 k (by simpa using hx)] at hk
          cases hk
        have hold : ∀ f ∈ s.1, ∃ e ∈ factors, (∀ v, v ∈ ops.vars f ↔ v ∈ ops.vars e) ∧
            (∃ a ∈ factors, Inside (ops.vars a) (ops.vars e)) ∧
            ∀ b ∈ factors.zipIdx, t.2 b.2 = false → ¬ Inside (ops.vars b.1) (ops.vars e) := by
          intro f hf
          obtain ⟨e', k1, k2, k3, k4⟩ := i1 f hf
          exact ⟨e', k1, k2, k3, fun b hb hm => k4 b hb (hback _ hm)⟩
        refine ⟨fun f hf => ?_, fun e' he' hm b hb hbm => ?_⟩
        · dsimp only at hf
          split at hf
          · rename_i hte
            rcases List.mem_append.1 hf with hf | hf
            · exact hold f hf
            · obtain rfl := List.mem_singleton.1 hf
              refine ⟨e.1, List.fst_mem_of_mem_zipIdx he, t2, ?_, t4⟩
              rcases t5 hte with hx | hx
              · rw [hmask] at hx; cases hx
              · exact hx
          · exact hold f hf
        · rcases List.mem_append.1 he' with he' | he'
          · exact i2 e' he' (hback _ hm) b hb (hback _ hbm)
          · obtain rfl := List.mem_singleton.1 he'
            exact t4 b hb hbm
      · rename_i hmask
        simp only [Except.ok.injEq] at hs
        subst hs
        refine ⟨i1, fun e' he' hm => ?_⟩
        rcases List.mem_append.1 he' with he' | he'
        · exact i2 e' he' hm
        · obtain rfl := List.mem_singleton.1 he'
          exact absurd hm hmask
  have phase2 : ∀ (l : List (F × Nat)) (u : List F × (Nat → Bool)), (∀ e ∈ l, e ∈ factors.zipIdx) →
      (∀ k, s.2 k = true → u.2 k = true) →
      (∀ f ∈ u.1, f ∈ s.1 ∨ ∃ e ∈ factors.zipIdx, s.2 e.2 = false ∧ f = e.1) →
      ∀ f ∈ (l.foldl (fun (s : List F × (Nat → Bool)) e =>
        if s.2 e.2 = false then (s.1 ++ [e.1], Function.update s.2 e.2 true) else s) u).1,
      f ∈ s.1 ∨ ∃ e ∈ factors.zipIdx, s.2 e.2 = false ∧ f = e.1 := by
    intro l
    induction l with
    | nil => intro u _ _ h; exact h
    | cons e l ih =>
      intro u hl hu h
      rw [List.foldl_cons]
      refine ih _ (fun a ha => hl a (List.mem_cons_of_mem _ ha)) ?_ ?_
      · intro k hk
        split
        · dsimp only
          by_cases hke : k = e.2
          · subst hke; simp
          · rw [Function.update_of_ne hke]; exact hu k hk
        · exact hu k hk
      · split
        · rename_i hm
          intro f hf
          rcases List.mem_append.1 hf with hf | hf
          · exact h f hf
          · refine Or.inr ⟨e, hl e (by simp), ?_, List.mem_singleton.1 hf⟩
            by_contra hx
            rw [hu _ (by simpa using hx)] at hm
            cases hm
        · exact h
  have hall := phase2 factors.zipIdx s (fun _ h => h) (fun _ h => h) (fun f hf => Or.inl hf)
  rw [h] at hall
  have hsc : ∀ g ∈ r, ∃ c ∈ factors, ∀ v, v ∈ ops.vars g ↔ v ∈ ops.vars c := by
    intro g hg
    rcases hall g hg with hg | ⟨e, he, _, rfl⟩
    · obtain ⟨c, hc, hv, _⟩ := inv.1 g hg
      exact ⟨c, hc, hv⟩
    · exact ⟨e.1, List.fst_mem_of_mem_zipIdx he, fun _ => Iff.rfl⟩
  rcases hall f hf with hf' | ⟨e, he, hm, rfl⟩
  · obtain ⟨b, hb, hv, ⟨a, ha, hab⟩, _⟩ := inv.1 f hf'
    obtain ⟨c, hc, hvc⟩ := hsc g hg
    exact ⟨a, ha, b, hb, c, hc, hab, hfg.congr hv hvc, hv, hvc⟩
  · exfalso
    rcases hall g hg with hg' | ⟨e', he', hm', rfl⟩
    · obtain ⟨b, hb, hv, _, hno⟩ := inv.1 g hg'
      exact hno e he hm (hfg.congr (fun _ => Iff.rfl) hv)
    · exact inv.2 e' he' hm' e he hm hfg

/-- **C100** (part). If no three input factors have nested scopes - counting only unobserved variables - then no
cluster's scope is strictly inside the scope of another cluster. (Missing: three nested scopes and equal scopes, for
which the claim is false: `C100_chain`, `C100_equal`.) -/
theorem C100_not_nested_partial (L : Laws ops D) (hs : HashSeed) (factors : List F) (hok : ∀ f ∈ factors, L.Ok f)
    (evidence : Option (Dict Var V)) (special : Dict Var V) (a : Any F V G)
    (h : new hs ops factors evidence special = .ok a)
    (hchain : ∀ f ∈ factors, ∀ f' ∈ factors, ∀ f'' ∈ factors,
      ¬ (Inside ((ops.vars f).filter fun v => v ∉ Dict.keys (evidence.getD []))
          ((ops.vars f').filter fun v => v ∉ Dict.keys (evidence.getD [])) ∧
        Inside ((ops.vars f').filter fun v => v ∉ Dict.keys (evidence.getD []))
          ((ops.vars f'').filter fun v => v ∉ Dict.keys (evidence.getD [])))) (i j : Fin a.n) :
    ¬ ((∀ v ∈ scope ops a.graph i, v ∈ scope ops a.graph j) ∧ ∃ v ∈ scope ops a.graph j, v ∉ scope ops a.graph i) := by
  intro hij
  obtain ⟨fs, h1, h2⟩ := new_factors h
  unfold clusterFactors at h1
  obtain ⟨es, h3, h4⟩ := py_bind_eq_ok.1 h1
  have hes : (∀ f ∈ es, L.Ok f) ∧ ∀ f ∈ es, ∃ f' ∈ factors, ∀ v, v ∈ ops.vars f ↔
      v ∈ (ops.vars f').filter fun v => v ∉ Dict.keys (evidence.getD []) := by
    cases evidence with
    | none =>
      rw [evidenceReduce_none h3]
      exact ⟨hok, fun f hf => ⟨f, hf, fun v => by simp [Dict.keys]⟩⟩
    | some ev =>
      have := L.evidenceReduce hok ev h3
      suffices hh : ∀ f ∈ es, L.Ok f ∧ ∃ f' ∈ factors, ∀ v, v ∈ ops.vars f ↔
          v ∈ (ops.vars f').filter fun v => v ∉ Dict.keys ((some ev).getD []) from
        ⟨fun f hf => (hh f hf).1, fun f hf => (hh f hf).2⟩
      intro f hf
      obtain ⟨k, hk, rfl⟩ := List.getElem_of_mem hf
      obtain ⟨hl, hget⟩ := List.forall₂_iff_get.1 this
      have hk' : k < factors.length := by rw [hl]; exact hk
      obtain ⟨o1, o2, _⟩ := hget k hk' hk
      exact ⟨o1, factors[k], List.getElem_mem hk', fun v => by simpa using o2 v⟩
  have hmem : ∀ k, (a.graph.cl k).factor ∈ fs := fun k => by rw [← h2]; exact List.mem_ofFn.2 ⟨k, rfl⟩
  obtain ⟨x, hx, y, hy, z, hz, hxy, hyz, _⟩ := absorb_nested L hes.1 h4 (hmem i) (hmem j) hij
  obtain ⟨x', hx', ex⟩ := hes.2 x hx
  obtain ⟨y', hy', ey⟩ := hes.2 y hy
  obtain ⟨z', hz', ez⟩ := hes.2 z hz
  exact hchain x' hx' y' hy' z' hz' ⟨hxy.congr ex ey, hyz.congr ey ez⟩

/-! ## The violations -/

open Sparse (exF exF_regular)

/-- A factor over `a` alone. -/
def nOne : Sparse ℝ := ⟨["a"], [2], [([0], .fin 0)], .ninf⟩

/-- A factor over `a, b, c`. -/
def nBig : Sparse ℝ := ⟨["a", "b", "c"], [2, 3, 2], [([0, 1, 0], .fin 0)], .ninf⟩

theorem nested_ok : ∀ f ∈ [exF, nOne, nBig], Sparse.Regular f ∧ ∀ v ∈ f.vars, f.card v = exC v := by
  intro f hf
  simp only [List.mem_cons, List.not_mem_nil, or_false] at hf
  rcases hf with rfl | rfl | rfl
  · exact ⟨exF_regular, by decide +kernel⟩
  · exact ⟨⟨⟨by decide, by decide, by decide, by simp [nOne, Dict.keys]⟩, by simp [nOne, XF.Proper], rfl⟩, by decide +kernel⟩
  · exact ⟨⟨⟨by decide, by decide, by decide, by simp [nBig, Dict.keys]⟩, by simp [nBig, XF.Proper], rfl⟩, by decide +kernel⟩

theorem nested_pos : ∀ f ∈ [exF, nOne, nBig],
    f.prob (override ((none : Option (Dict Var Nat)).getD []) (override [] exX)) ≠ 0 := by
  intro f hf
  simp only [List.mem_cons, List.not_mem_nil, or_false] at hf
  rcases hf with rfl | rfl | rfl <;>
    simp [exF, nOne, nBig, Sparse.prob, Sparse.val, Dict.get?, XF.prob, exX, override]

theorem absorb_chain {f h k p : F} (hf : ops.vars f = ["a", "b"]) (hh : ops.vars h = ["a"])
    (hk : ops.vars k = ["a", "b", "c"]) (hp : ops.multiply f h = .ok p)
    (hv : ∀ v, v ∈ ops.vars p ↔ v ∈ ["a", "b"]) : absorb ops [f, h, k] = .ok [p, k] := by
  have h1 : strictSubset (ops.vars h) (ops.vars f) = true := by rw [hf, hh]; decide
  have h2 : strictSubset (ops.vars k) (ops.vars p) = false := by
    rw [Bool.eq_false_iff, Ne, strictSubset_iff, hk]
    rintro ⟨h, _⟩
    exact absurd ((hv "c").1 (h "c" (by decide))) (by decide)
  simp [absorb, absorbInner, List.zipIdx, h1, h2, hp, pure, Except.pure, bind, Except.bind, pyAssert, Function.update,
    List.range, List.range.loop]

theorem absorb_equal {f : F} : absorb ops [f, f] = .ok [f, f] := by
  have h1 : strictSubset (ops.vars f) (ops.vars f) = false := by
    rw [Bool.eq_false_iff, Ne, strictSubset_iff]
    rintro ⟨_, v, h1, h2⟩
    exact h2 h1
  simp [absorb, absorbInner, List.zipIdx, h1, pure, Except.pure, bind, Except.bind, pyAssert, Function.update,
    List.range, List.range.loop]

/-- **C100** (violation). Factors over `a, b`, over `a` and over `a, b, c` give two clusters; the scope of the first is
inside that of the second. -/
theorem C100_chain (hs : HashSeed) : ∃ (a : Any (Sparse ℝ) Nat EReal) (i j : Fin a.n),
    new hs (sparseOps hs) [exF, nOne, nBig] none [] = .ok a ∧
    (∀ v ∈ scope (sparseOps hs) a.graph i, v ∈ scope (sparseOps hs) a.graph j) ∧
    "c" ∈ scope (sparseOps hs) a.graph j ∧ "c" ∉ scope (sparseOps hs) a.graph i := by
  obtain ⟨a, ha, _⟩ := C78_inference_never_fails hs exC _ nested_ok none [] ⟨exX, nested_pos⟩
  obtain ⟨fs, h1, h2⟩ := new_factors ha
  unfold clusterFactors at h1
  obtain ⟨es, h3, h4⟩ := py_bind_eq_ok.1 h1
  rw [evidenceReduce_none h3] at h4
  have o1 := nested_ok exF (by simp)
  have o2 := nested_ok nOne (by simp)
  obtain ⟨p, hp⟩ := (sparseTotal hs exC).mul o1 o2
  obtain ⟨_, hv, _⟩ := (sparseLaws hs exC).toLaws.mul o1 o2 hp
  have hv' : ∀ v, v ∈ (sparseOps hs).vars p ↔ v ∈ ["a", "b"] := fun v => by
    rw [hv]
    show v ∈ ["a", "b"] ∨ v ∈ ["a"] ↔ _
    simp only [List.mem_cons, List.not_mem_nil, or_false]
    tauto
  rw [absorb_chain (ops := sparseOps hs) rfl rfl rfl hp hv'] at h4
  simp only [Except.ok.injEq] at h4
  rw [← h4] at h2
  have hn : a.n = 2 := by simpa using congrArg List.length h2
  obtain ⟨n, m, g⟩ := a
  dsimp only at hn h2
  subst hn
  simp only [List.ofFn_succ, List.ofFn_zero, List.cons.injEq, and_true] at h2
  refine ⟨_, (0 : Fin 2), (1 : Fin 2), ha, ?_⟩
  have s0 : ∀ v, v ∈ scope (sparseOps hs) g 0 ↔ v ∈ ["a", "b"] := fun v => by
    unfold scope; rw [h2.1]; exact hv' v
  have s1 : ∀ v, v ∈ scope (sparseOps hs) g 1 ↔ v ∈ ["a", "b", "c"] := fun v => by
    unfold scope
    have := h2.2
    rw [show (1 : Fin 2) = Fin.succ 0 from rfl, this]; rfl
  refine ⟨fun v hv => (s1 v).2 ?_, (s1 _).2 (by decide), fun h => absurd ((s0 _).1 h) (by decide)⟩
  have := (s0 v).1 hv
  simp only [List.mem_cons, List.not_mem_nil, or_false] at this ⊢
  tauto

/-- **C100** (violation). Two factors with the same scope give two clusters with the same scope. -/
theorem C100_equal (hs : HashSeed) : ∃ (a : Any (Sparse ℝ) Nat EReal),
    new hs (sparseOps hs) [exF, exF] none [] = .ok a ∧ a.n = 2 ∧
    ∀ i, scope (sparseOps hs) a.graph i = ["a", "b"] := by
  obtain ⟨a, ha, _⟩ := C78_inference_never_fails hs exC [exF, exF]
    (fun f hf => nested_ok f (by simp only [List.mem_cons, List.not_mem_nil, or_false] at hf ⊢; tauto)) none []
    ⟨exX, fun f hf => nested_pos f (by simp only [List.mem_cons, List.not_mem_nil, or_false] at hf ⊢; tauto)⟩
  obtain ⟨fs, h1, h2⟩ := new_factors ha
  unfold clusterFactors at h1
  obtain ⟨es, h3, h4⟩ := py_bind_eq_ok.1 h1
  rw [evidenceReduce_none h3, absorb_equal] at h4
  simp only [Except.ok.injEq] at h4
  rw [← h4] at h2
  refine ⟨a, ha, by simpa using congrArg List.length h2, fun i => ?_⟩
  have hm : (a.graph.cl i).factor ∈ [exF, exF] := by rw [← h2]; exact List.mem_ofFn.2 ⟨i, rfl⟩
  have he : (a.graph.cl i).factor = exF := by simpa using hm
  unfold scope
  rw [he]
  rfl

/-- Two of the nested factors, over `a` and over `a, b`, meet the hypothesis of `C100_not_nested_partial`. -/
example : ∃ a : Any (Sparse ℝ) Nat EReal, new HashSeed.example (sparseOps HashSeed.example) [exF, nOne] none [] = .ok a ∧
    ∀ i j : Fin a.n, ¬ ((∀ v ∈ scope (sparseOps HashSeed.example) a.graph i, v ∈ scope (sparseOps HashSeed.example) a.graph j) ∧
      ∃ v ∈ scope (sparseOps HashSeed.example) a.graph j, v ∉ scope (sparseOps HashSeed.example) a.graph i) := by
  have hok : ∀ f ∈ [exF, nOne], Sparse.Regular f ∧ ∀ v ∈ f.vars, f.card v = exC v :=
    fun f hf => nested_ok f (by simp only [List.mem_cons, List.not_mem_nil, or_false] at hf ⊢; tauto)
  obtain ⟨a, ha, _⟩ := C78_inference_never_fails HashSeed.example exC [exF, nOne] hok none []
    ⟨exX, fun f hf => nested_pos f (by simp only [List.mem_cons, List.not_mem_nil, or_false] at hf ⊢; tauto)⟩
  refine ⟨a, ha, C100_not_nested_partial (sparseLaws HashSeed.example exC).toLaws HashSeed.example [exF, nOne] hok none []
    a ha ?_⟩
  intro f hf f' hf' f'' hf'' ⟨⟨x1, v, x2, x3⟩, y1, w, y2, y3⟩
  simp only [List.mem_cons, List.not_mem_nil, or_false] at hf hf' hf''
  have ev : ∀ g : Sparse ℝ, ((sparseOps HashSeed.example).vars g).filter
      (fun v => v ∉ Dict.keys ((none : Option (Dict Var Nat)).getD [])) = g.vars := fun g => by
    show List.filter _ g.vars = g.vars
    simp [Dict.keys]
  rw [ev] at *
  rcases hf with rfl | rfl <;> rcases hf' with rfl | rfl <;> rcases hf'' with rfl | rfl <;>
    simp [exF, nOne] at x1 x2 x3 y1 y2 y3 <;> simp_all

end Verif.CG
