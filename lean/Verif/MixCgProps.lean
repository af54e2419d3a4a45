import Verif.MixCgLaws
import Verif.ClusterCongr
import Verif.NlgCgFacts
import Verif.ClusterInt2

/-!
# C125: cluster graphs with Gaussian mixture factors
-/

namespace Verif.CG
open Spec (override DependsOn intOut integrateOut IntegrableOut integrableOut_iff)
open Gauss (AnyG)
open Classical
open scoped ENNReal

variable {hs : HashSeed} {approx : ℕ → Mix → Mix → Py (Mix × Mix × Mix)}

/-- A factor in order. -/
def GmOk : GM → Prop
  | .inl f => GaussOk f
  | .inr a => MixOk a

/-- The factor is a `Gaussian`. -/
def IsG (f : GM) : Prop := ∃ g, f = .inl g

/-! ### The kind of a result -/

theorem gm_mul_kind {f g r : GM} (h : gmMultiply hs f g = .ok r) : IsG r ↔ IsG f ∧ IsG g := by
  rcases f with f | f <;> rcases g with g | g <;> unfold gmMultiply at h <;>
    obtain ⟨t, -, h⟩ := py_bind_eq_ok.1 h <;> cases h <;> simp [IsG]

theorem gm_mul_left {f g r : GM} (h : gmMultiply hs f g = .ok r) (hf : IsG f) : IsG g := by
  obtain ⟨f, rfl⟩ := hf
  rcases g with g | g <;> unfold gmMultiply at h <;> obtain ⟨t, -, h⟩ := py_bind_eq_ok.1 h <;> cases h
  exact ⟨_, rfl⟩

theorem gm_cancel_kind {f g r : GM} (hf : IsG f) (h : gmCancel hs approx f g = .ok r) : IsG r := by
  obtain ⟨f, rfl⟩ := hf
  rcases g with g | g <;> unfold gmCancel at h <;> obtain ⟨t, -, h⟩ := py_bind_eq_ok.1 h <;> cases h
  exact ⟨_, rfl⟩

theorem gm_marg_kind {f r : GM} {vrs : List Var} (h : gmMarginalize hs f vrs = .ok r) : IsG r ↔ IsG f := by
  rcases f with f | f <;> unfold gmMarginalize at h <;> obtain ⟨t, -, h⟩ := py_bind_eq_ok.1 h
  · cases h; simp [IsG]
  · obtain ⟨u, -, h⟩ := py_bind_eq_ok.1 h
    cases h; simp [IsG]

theorem gm_red_kind {f r : GM} {vs : List Var} {ks : List ℝ} (h : gmReduce hs f vs ks = .ok r) : IsG r ↔ IsG f := by
  rcases f with f | f <;> unfold gmReduce at h <;> obtain ⟨t, -, h⟩ := py_bind_eq_ok.1 h <;> cases h <;> simp [IsG]

/-! ### The class with a division of Gaussians only -/

/-- As `gmOps`, but only Gaussians are divided. -/
noncomputable def gmStrict (hs : HashSeed) (approx : ℕ → Mix → Mix → Py (Mix × Mix × Mix)) : Ops GM ℝ EReal :=
  { gmOps hs approx with
    cancel := fun
      | .inl f, .inl g => gmCancel hs approx (.inl f) (.inl g)
      | _, _ => .error .attributeError }

theorem gm_closed : Closed (gmOps hs approx) (gmStrict hs approx) IsG where
  same := rfl
  mul := fun _ _ _ hf hg h => (gm_mul_kind h).2 ⟨hf, hg⟩
  cancel := fun _ _ _ hf _ h => gm_cancel_kind hf h
  marg := fun _ _ _ hf h => (gm_marg_kind h).2 hf
  red := fun _ _ _ _ hf h => (gm_red_kind h).2 hf
  agree := by
    rintro _ _ ⟨f, rfl⟩ ⟨g, rfl⟩
    rfl

theorem gmDen_pos {f : GM} (hf : GmOk f) (x : Var → ℝ) : 0 < gmDen f x := by
  cases f with
  | inl f => exact gaussDen_pos hf x
  | inr a => exact mixDen_pos hf x

theorem gm_marg {f r : GM} {vrs : List Var} (hf : GmOk f) (hn : vrs.Nodup) (hv : ∀ v ∈ vrs, v ∈ gmVars f)
    (h : gmMarginalize hs f vrs = .ok r) : GmOk r ∧ gmVars r = vrs ∧
      ((∃ x, intOut (gmVars f).toFinset (fun y => .ofReal (gmDen f y)) x ≠ ∞) → ∀ x, ENNReal.ofReal (gmDen r x) =
        intOut ((gmVars f).toFinset \ vrs.toFinset) (fun y => .ofReal (gmDen f y)) x) := by
  cases f with
  | inl f =>
    obtain ⟨r', h1, h2⟩ := py_bind_eq_ok.1
      (show (do let r ← (gaussOps hs).marginalize f vrs; .ok (.inl r) : Py GM) = .ok r from h)
    cases h2
    obtain ⟨k1, k2⟩ := gauss_marg hf hn hv h1
    exact ⟨k1, k2, fun hx x => gauss_int hf hn hv h1 hx x⟩
  | inr a =>
    have hk := gm_marg_kind h
    cases r with
    | inl r => exact absurd (hk.1 ⟨_, rfl⟩) (by simp [IsG])
    | inr r => exact mix_marg hf hn hv h

/-- The laws of the class. -/
noncomputable def gmLaws (hs : HashSeed) (approx : ℕ → Mix → Mix → Py (Mix × Mix × Mix)) : PosLaws (gmStrict hs approx) where
  Ok := GmOk
  den := gmDen
  val := id
  nonneg := fun hf x => (gmDen_pos hf x).le
  dep := by
    intro f hf
    cases f with
    | inl f => exact gaussDen_dep hf
    | inr a =>
      intro x y h
      show mixDen a x = mixDen a y
      unfold mixDen
      rw [List.map_congr_left (show ∀ v ∈ a.vars, x v = y v from h)]
  nodup := by
    intro f hf
    cases f with
    | inl f => exact hf.good.nodup
    | inr a => exact hf.nodup
  mul := by
    intro f g r hf hg h
    rcases f with f | f <;> rcases g with g | g
    · obtain ⟨r', h1, h2⟩ := py_bind_eq_ok.1
        (show (do let r ← (gaussOps hs).multiply f g; .ok (.inl r) : Py GM) = .ok r from h)
      cases h2
      exact gauss_mul hf hg h1
    · exact absurd (gm_mul_left (hs := hs) (f := .inl f) (g := .inr g) h ⟨_, rfl⟩) (by simp [IsG])
    · obtain ⟨⟨a', g', r'⟩, h1, h2⟩ := py_bind_eq_ok.1
        (show (do let (_, _, r) ← f.multiplyG g; .ok (.inr r) : Py GM) = .ok r from h)
      cases h2
      exact mix_mulG hf hg h1
    · obtain ⟨⟨a', g', r'⟩, h1, h2⟩ := py_bind_eq_ok.1
        (show (do let (_, _, r) ← f.multiply g; .ok (.inr r) : Py GM) = .ok r from h)
      cases h2
      exact mix_mul hf hg h1
  cancel := by
    intro f g r hf hg hsub _ h
    rcases f with f | f <;> rcases g with g | g
    · obtain ⟨r', h1, h2⟩ := py_bind_eq_ok.1
        (show (do let r ← (gaussOps hs).cancel f g; .ok (.inl r) : Py GM) = .ok r from h)
      cases h2
      obtain ⟨k1, k2, k3⟩ := gauss_cancel hf hg h1
      exact ⟨k1, fun v => (k2 v).trans ⟨fun h => h.elim id (hsub v), .inl⟩, k3⟩
    all_goals cases h
  marg := by
    intro f vrs r hf hn hv h
    obtain ⟨h1, h2, -⟩ := gm_marg hf hn hv h
    refine ⟨h1, fun v => by show v ∈ gmVars r ↔ _; rw [h2], fun x => ?_⟩
    exact ⟨fun h0 => absurd h0 (gmDen_pos h1 x).ne', fun h0 => absurd (h0 x fun _ _ => rfl) (gmDen_pos hf x).ne'⟩
  red := by
    intro f vs ks r hf hn hv hl h
    cases f with
    | inl f =>
      obtain ⟨r', h1, h2⟩ := py_bind_eq_ok.1
        (show (do let r ← (gaussOps hs).reduce f vs ks; .ok (.inl r) : Py GM) = .ok r from h)
      cases h2
      obtain ⟨h1, h2, h3⟩ := gauss_red hf hn hv hl h1
      exact ⟨h1, h2, fun x => by rw [List.map_id]; exact h3 x⟩
    | inr a =>
      obtain ⟨⟨a', r'⟩, h1, h2⟩ := py_bind_eq_ok.1
        (show (do let (_, r) ← a.reduce vs ks; .ok (.inr r) : Py GM) = .ok r from h)
      cases h2
      obtain ⟨h1, h2, h3⟩ := mix_red hs hf hn hv hl h1
      exact ⟨h1, h2, fun x => by rw [List.map_id]; exact h3 x⟩
  pos := gmDen_pos
  meas := by
    intro f hf
    cases f with
    | inl f => exact gaussDen_meas hf
    | inr a => exact mixDen_meas hf

/-! ### Mixtures send no messages -/

theorem gm_path {evVars : List Var} {n m : ℕ} {g : Graph GM ℝ EReal n m} (w : Wired (gmOps hs approx) evVars g) (q : Fin m) :
    IsG (g.cl (g.path q).snd).factor := by
  have h1 := w.next q
  have h2 := w.gain q
  unfold makeMessage at h1
  obtain ⟨sep, -, h1⟩ := py_bind_eq_ok.1 h1
  obtain ⟨f, h3, h1⟩ := py_bind_eq_ok.1 h1
  obtain ⟨f', h4, h1⟩ := py_bind_eq_ok.1 h1
  unfold cancelReceived at h1
  rw [w.received] at h1
  have h5 : (g.path q).next.factor = f' := by
    cases h1' : (g.path q).next
    rw [h1'] at h1
    cases h1
    rfl
  have h6 : IsG f' := by
    rw [← h5]
    cases hn : (g.path q).next.factor with
    | inl k => exact ⟨k, rfl⟩
    | inr k =>
      unfold gainOf at h2
      rw [hn] at h2
      cases h2
  have h7 := (gm_marg_kind h4).1 h6
  unfold specialReduced at h3
  split at h3
  · cases h3; exact h7
  · exact (gm_red_kind h3).1 h7

/-- **C125, mixtures stand alone.** In a graph that could be built, a cluster whose factor is a mixture has no
neighbour, and shares no unobserved variable with another cluster. -/
theorem C125_alone (hs : HashSeed) (approx : ℕ → Mix → Mix → Py (Mix × Mix × Mix)) (factors : List GM)
    (evidence : Option (Dict Var ℝ)) (special : Dict Var ℝ) (a : Any GM ℝ EReal)
    (h : new hs (gmOps hs approx) factors evidence special = .ok a) (i : Fin a.n) (b : Mix)
    (hi : (a.graph.cl i).factor = .inr b) (j : Fin a.n) :
    sepset a.graph i j = none ∧
      (i ≠ j → ∀ v, v ∈ b.vars → v ∈ gmVars (a.graph.cl j).factor → v ∈ Dict.keys special ∨
        ∃ ev, evidence = some ev ∧ v ∈ Dict.keys ev) := by
  obtain ⟨w, -, -⟩ := wired_new h
  have hno : ∀ j, sepset a.graph i j = none := by
    intro j
    by_contra hc
    obtain ⟨s, hs'⟩ := Option.ne_none_iff_exists'.1 hc
    obtain ⟨q, hq, -⟩ := (w.pathSep i j).2 ⟨s, hs'⟩
    obtain ⟨g, hg⟩ := gm_path w q
    rw [hq, hi] at hg
    cases hg
  refine ⟨hno j, fun hij v hvi hvj => ?_⟩
  by_contra hobs
  have hi' : v ∈ scope (gmOps hs approx) a.graph i := by
    show v ∈ gmVars (a.graph.cl i).factor
    rw [hi]
    exact hvi
  obtain ⟨-, ht⟩ := C45_running_intersection hs _ factors evidence special a h v hobs ⟨i, hi'⟩
  obtain ⟨p⟩ := ht.connected.preconnected ⟨i, hi'⟩ ⟨j, hvj⟩
  cases p with
  | nil => exact hij rfl
  | cons hadj _ =>
    have := hadj
    simp only [SimpleGraph.comap_adj, Function.Embedding.subtype_apply, sepGraph] at this
    obtain ⟨-, h1 | h1⟩ := (SimpleGraph.fromRel_adj _ _ _).1 this
    · obtain ⟨s, hs', -⟩ := h1
      rw [hno] at hs'
      cases hs'
    · obtain ⟨s, hs', -⟩ := h1
      rw [w.sepSymm, hno] at hs'
      cases hs'

/-! ### Which factors fit in one graph -/

theorem gm_absorbs {f r : GM} {l : List GM} (h : Absorbs (gmOps hs approx) f l r) : ∀ g ∈ f :: l, ¬ IsG g → ¬ IsG r := by
  induction h with
  | nil =>
    intro g hg
    rw [List.mem_singleton.1 hg]
    exact id
  | @snoc l p k r hp hsub hm ih =>
    intro g hg hng hr
    obtain ⟨h1, h2⟩ := (gm_mul_kind (show gmMultiply hs _ _ = _ from hm)).1 hr
    rcases List.mem_cons.1 hg with rfl | hg
    · exact ih _ (by simp) hng h1
    · rcases List.mem_append.1 hg with hg | hg
      · exact ih _ (by simp [hg]) hng h1
      · rw [List.mem_singleton.1 hg] at hng
        exact hng h2

theorem absorbs_sub {F V G D : Type} {ops : Ops F V G} (L : Laws ops D) {f r : F} {l : List F} (hf : L.Ok f)
    (hl : ∀ g ∈ l, L.Ok g) (h : Absorbs ops f l r) : ∀ g ∈ f :: l, ∀ v ∈ ops.vars g, v ∈ ops.vars r := by
  intro g hg v hv
  obtain ⟨-, h2, -⟩ := L.productFrom hf hl h.product
  refine (h2 v).2 ?_
  rcases List.mem_cons.1 hg with rfl | hg
  · exact .inl hv
  · exact .inr ⟨g, hg, hv⟩

theorem gm_observe {ev : Dict Var ℝ} {f r : GM} (h : observe (gmOps hs approx) ev f = .ok r) : IsG r ↔ IsG f := by
  unfold observe at h
  dsimp only at h
  split at h
  · exact gm_red_kind h
  · cases h; rfl

theorem gm_evidence {factors rs : List GM} {evidence : Option (Dict Var ℝ)} (hok : ∀ f ∈ factors, GmOk f)
    (h : evidenceReduce (gmOps hs approx) factors evidence = .ok rs) :
    List.Forall₂ (fun f f' => GmOk f' ∧ (IsG f' ↔ IsG f) ∧
      ∀ v, v ∈ gmVars f' ↔ v ∈ gmVars f ∧ v ∉ Dict.keys (evidence.getD [])) factors rs := by
  unfold evidenceReduce at h
  have h' := Cat.mapM_inv h
  clear h
  induction h' with
  | nil => exact .nil
  | @cons f r fs rs hfr _ ih =>
    refine .cons ?_ (ih fun f hf => hok f (by simp [hf]))
    cases evidence with
    | none =>
      cases hfr
      exact ⟨hok f (by simp), Iff.rfl, fun v => by simp [Dict.keys]⟩
    | some ev =>
      obtain ⟨h1, h2, -⟩ := (gmLaws hs approx).toLaws.observe (hok f (by simp)) ev hfr
      exact ⟨h1, gm_observe hfr, h2⟩

/-- Every factor is inside some cluster, and the cluster of a mixture holds a mixture. -/
theorem gm_cluster {factors : List GM} {evidence : Option (Dict Var ℝ)} {special : Dict Var ℝ} {a : Any GM ℝ EReal}
    (hok : ∀ f ∈ factors, GmOk f) (h : new hs (gmOps hs approx) factors evidence special = .ok a) (f : GM) (hf : f ∈ factors) :
    ∃ i, (¬ IsG f → ¬ IsG (a.graph.cl i).factor) ∧
      ∀ v ∈ gmVars f, v ∉ Dict.keys (evidence.getD []) → v ∈ gmVars (a.graph.cl i).factor := by
  obtain ⟨fs, h1, h2⟩ := new_factors h
  unfold clusterFactors at h1
  obtain ⟨rs, h3, h4⟩ := py_bind_eq_ok.1 h1
  have h5 := gm_evidence hok h3
  obtain ⟨k, hk, rfl⟩ := List.mem_iff_getElem.1 hf
  have hk' : k < rs.length := h5.length_eq ▸ hk
  obtain ⟨e1, e2, e3⟩ := h5.get hk hk'
  have hrs : ∀ r ∈ rs, GmOk r := by
    intro r hr
    obtain ⟨k, hk, rfl⟩ := List.mem_iff_getElem.1 hr
    exact (h5.get (h5.length_eq ▸ hk) hk).1
  obtain ⟨groups, g1, g2⟩ := C43_absorb_partitions _ rs fs h4
  have hmem : (rs[k], k) ∈ groups.flatten := g1.mem_iff.2 (List.mk_mem_zipIdx_iff_getElem?.2 (List.getElem?_eq_getElem hk'))
  obtain ⟨grp, hgrp, hin⟩ := List.mem_flatten.1 hmem
  have hgok : ∀ e ∈ grp, GmOk e.1 := by
    intro e he
    have : e ∈ rs.zipIdx := g1.mem_iff.1 (List.mem_flatten.2 ⟨grp, hgrp, he⟩)
    exact hrs _ (List.fst_mem_of_mem_zipIdx this)
  obtain ⟨t, ht, rfl⟩ := List.mem_iff_getElem.1 hgrp
  have ht' : t < fs.length := g2.length_eq ▸ ht
  obtain ⟨e, tl, he, hab⟩ := g2.get ht ht'
  have hin' : rs[k] ∈ e.1 :: tl.map Prod.fst := by
    have : rs[k] ∈ groups[t].map Prod.fst := List.mem_map.2 ⟨_, hin, rfl⟩
    rw [show groups[t] = e :: tl from he] at this
    exact this
  have hfs : fs[t] ∈ List.ofFn fun i => (a.graph.cl i).factor := by rw [h2]; exact List.getElem_mem _
  obtain ⟨i, hi⟩ := (List.mem_ofFn' _ _).1 hfs
  dsimp only at hi
  refine ⟨i, fun hnf => ?_, fun v hv hve => ?_⟩
  · rw [hi]
    exact gm_absorbs hab _ hin' (fun hc => hnf (e2.1 hc))
  · rw [hi]
    refine absorbs_sub (gmLaws hs approx).toLaws (f := e.1) (l := tl.map Prod.fst) (r := fs[t]) ?_ ?_ ?_ _ hin' v ((e3 v).2 ⟨hv, hve⟩)
    · exact hgok e (by rw [show groups[t] = e :: tl from he]; simp)
    · intro g hg
      obtain ⟨e', he', rfl⟩ := List.mem_map.1 hg
      exact hgok e' (by rw [show groups[t] = e :: tl from he]; simp [he'])
    · have : ∀ {f r l}, Absorbs (gmOps hs approx) f l r → Absorbs (gmStrict hs approx) f l r := by
        intro f r l h
        induction h with
        | nil => exact .nil
        | snoc _ h1 h2 ih => exact .snoc ih h1 h2
      exact this hab

/-- **C125, which factors fit in one graph.** If the graph could be built, and a mixture shares an unobserved
variable with another of the factors, then the unobserved variables of both are in the scope of one of the factors. -/
theorem C125_overlap (hs : HashSeed) (approx : ℕ → Mix → Mix → Py (Mix × Mix × Mix)) (factors : List GM)
    (hok : ∀ f ∈ factors, GmOk f) (evidence : Option (Dict Var ℝ)) (special : Dict Var ℝ) (a : Any GM ℝ EReal)
    (h : new hs (gmOps hs approx) factors evidence special = .ok a) (b : Mix) (hb : .inr b ∈ factors) (f : GM)
    (hf : f ∈ factors) (v : Var) (hvb : v ∈ b.vars) (hvf : v ∈ gmVars f) (hvs : v ∉ Dict.keys special)
    (hve : v ∉ Dict.keys (evidence.getD [])) :
    ∃ k ∈ factors, ∀ u, u ∈ b.vars ∨ u ∈ gmVars f → u ∉ Dict.keys (evidence.getD []) → u ∈ gmVars k := by
  obtain ⟨i, i1, i2⟩ := gm_cluster hok h _ hb
  obtain ⟨j, j1, j2⟩ := gm_cluster hok h _ hf
  have hbi : ∃ b', (a.graph.cl i).factor = .inr b' := by
    cases hc : (a.graph.cl i).factor with
    | inl k => exact absurd ⟨k, hc⟩ (i1 (by simp [IsG]))
    | inr k => exact ⟨k, rfl⟩
  obtain ⟨b', hb'⟩ := hbi
  have hij : i = j := by
    by_contra hij
    have h1 := i2 v hvb hve
    rw [hb'] at h1
    rcases (C125_alone hs approx factors evidence special a h i b' hb' j).2 hij v h1 (j2 v hvf hve) with h2 | ⟨ev, rfl, h2⟩
    · exact hvs h2
    · exact hve h2
  subst hij
  have h' : new hs (gmStrict hs approx) factors evidence special = .ok a := (new_cancel gm_closed.same _ _ _).trans h
  obtain ⟨-, -, h3⟩ := C44_evidence (gmLaws hs approx).toLaws hs factors hok evidence special a h'
  obtain ⟨k, hk, hk'⟩ := h3 i
  refine ⟨k, hk, fun u hu hue => ((hk' u).1 ?_).1⟩
  rcases hu with hu | hu
  · exact i2 u hu hue
  · exact j2 u hu hue

/-- **C125, violation.** If a mixture shares an unobserved variable with another factor, and no factor covers the
unobserved variables of both, the graph cannot be built: `ClusterGraph` raises. -/
theorem C125_violated_overlap (hs : HashSeed) (approx : ℕ → Mix → Mix → Py (Mix × Mix × Mix)) (factors : List GM)
    (hok : ∀ f ∈ factors, GmOk f) (evidence : Option (Dict Var ℝ)) (special : Dict Var ℝ) (b : Mix) (hb : .inr b ∈ factors)
    (f : GM) (hf : f ∈ factors) (v : Var) (hvb : v ∈ b.vars) (hvf : v ∈ gmVars f) (hvs : v ∉ Dict.keys special)
    (hve : v ∉ Dict.keys (evidence.getD []))
    (hno : ∀ k ∈ factors, ∃ u, (u ∈ b.vars ∨ u ∈ gmVars f) ∧ u ∉ Dict.keys (evidence.getD []) ∧ u ∉ gmVars k) :
    ∃ e, new hs (gmOps hs approx) factors evidence special = .error e := by
  cases h : new hs (gmOps hs approx) factors evidence special with
  | error e => exact ⟨e, rfl⟩
  | ok a =>
    obtain ⟨k, hk, hu⟩ := C125_overlap hs approx factors hok evidence special a h b hb f hf v hvb hvf hvs hve
    obtain ⟨u, h1, h2, h3⟩ := hno k hk
    exact absurd (hu u h1 h2) h3

/-- **C125, violation.** A mixture whose variables are some, but not all, of the variables of a Gaussian cannot be
in one graph with it: `AttributeError`. -/
theorem C125_violated_inside (hs : HashSeed) (approx : ℕ → Mix → Mix → Py (Mix × Mix × Mix)) (f : AnyG) (b : Mix)
    (hf : GaussOk f) (hsub : ∀ v ∈ b.vars, v ∈ f.2.vars) (hne : ∃ v ∈ f.2.vars, v ∉ b.vars) (special : Dict Var ℝ) :
    new hs (gmOps hs approx) [.inl f, .inr b] none special = .error .attributeError := by
  have hs1 : strictSubset b.vars f.2.vars = true := by
    obtain ⟨v, h1, h2⟩ := hne
    unfold strictSubset
    simp only [Bool.and_eq_true, Bool.not_eq_true', decide_eq_true_eq, decide_eq_false_iff_not]
    exact ⟨hsub, fun h => h2 (h v h1)⟩
  have he' : (gmOps hs approx).multiply (.inl f) (.inr b) = .error .attributeError := by
    show (do let _ ← f.2.getCan; .error .attributeError : Py GM) = _
    rw [Gauss.getCan_valid hf.good.toValid]
    rfl
  have hs1' : strictSubset ((gmOps hs approx).vars (.inr b)) ((gmOps hs approx).vars (.inl f)) = true := hs1
  have hab : absorb (gmOps hs approx) [.inl f, .inr b] = .error .attributeError := by
    simp [absorb, absorbInner, List.zipIdx, hs1', he', bind, Except.bind]
  unfold new clusterFactors
  rw [show evidenceReduce (gmOps hs approx) [.inl f, .inr b] none = .ok [.inl f, .inr b] from rfl, py_bind_ok, hab]
  rfl

/-! ### Exact marginals -/

theorem gm_intAt {f : GM} (hf : GmOk f)
    (hint : ∃ x, intOut (gmVars f).toFinset (fun y => .ofReal (gmDen f y)) x ≠ ⊤) : IntAt (gmLaws hs approx) f :=
  fun _ _ hn hv h => (gm_marg hf hn hv h).2.2 hint

/-- **C125 (graphs of Gaussians and Gaussian mixtures).** If the graph can be built, its edges form no cycle, message
passing has converged and the belief of every cluster can be normalised, then `get_marginal` of unobserved variables
returns a positive multiple of the integral of the product of the factors, given the evidence, over all other
unobserved variables. -/
theorem C125_exact_partial (hs : HashSeed) (approx : ℕ → Mix → Mix → Py (Mix × Mix × Mix)) (factors : List GM)
    (hok : ∀ f ∈ factors, GmOk f) (evidence : Option (Dict Var ℝ)) (special : Dict Var ℝ) (a : Any GM ℝ EReal)
    (h : new hs (gmOps hs approx) factors evidence special = .ok a)
    (htree : (SimpleGraph.fromRel fun i j => ∃ s, sepset a.graph i j = some s).IsAcyclic)
    (tr : List (Fin a.m × GM)) (g : Graph GM ℝ EReal a.n a.m) (hr : Run (gmOps hs approx) a.graph tr g)
    (hconv : ∀ q, ∃ c : ℝ, 0 < c ∧ ∀ x,
      gmDen (g.path q).next.factor x = c * ((lastMsg tr q).map fun f => gmDen f x).getD 1)
    (hnorm : ∀ i, ∃ l x, l.Nodup ∧ (∀ v, v ∈ l ↔ v ∈ gmVars (a.graph.cl i).factor ∧ v ∉ Dict.keys special) ∧
      IntegrableOut l (fun y => gmDen (g.cl i).factor (override special y)) x)
    (vrs : List Var) (hn : vrs.Nodup) (hunobs : ∀ v ∈ vrs, v ∉ Dict.keys special) (r : GM)
    (hm : getMarginal (gmOps hs approx) g vrs = .ok r) (post : (Var → ℝ) → ℝ)
    (hpost : ∀ x, post x =
      (factors.map fun f => gmDen f (override (evidence.getD []) (override special x))).prod) :
    ∃ c : ℝ, 0 < c ∧ ∀ out : List Var, out.Nodup →
      (∀ v, v ∈ out ↔ (∃ f ∈ factors, v ∈ gmVars f) ∧ v ∉ Dict.keys (evidence.getD []) ∧ v ∉ Dict.keys special ∧ v ∉ vrs) →
      ∀ x, IntegrableOut out post x ∧ gmDen r x = c * integrateOut out post x := by
  have h' : new hs (gmStrict hs approx) factors evidence special = .ok a := (new_cancel gm_closed.same _ _ _).trans h
  obtain ⟨w, hsp, -⟩ := wired_new h
  obtain ⟨w', -, -⟩ := wired_new h'
  have hok' : ∀ f ∈ factors, (gmLaws hs approx).Ok f := hok
  have hr' := (run_closed gm_closed w (fun q => gm_path w q) hr).1
  have b := hr'.bel w' (new_ok (gmLaws hs approx).toLaws hok' h')
  have hmap : ∀ d : Dict Var ℝ, d.map (fun e => (e.1, (gmLaws hs approx).val e.2)) = d := fun d =>
    (List.map_congr_left fun e _ => rfl).trans (List.map_id _)
  have hpost' : posteriorI (gmLaws hs approx) factors evidence special = post := by
    funext x
    unfold posteriorI
    rw [hmap, hmap, hpost]
    rfl
  obtain ⟨c, hc, hx⟩ := exact_marginals_of (gmLaws hs approx) hs factors hok' evidence special a h' htree tr g hr' hconv
    (by rw [hmap]; exact hnorm) (by
      intro i red h1 h2 h3 h4
      refine gm_intAt h1 ?_
      obtain ⟨l, x, hl, hv, hi⟩ := hnorm i
      have hset : l.toFinset = freeVars (gmStrict hs approx) a.graph i := by
        ext v
        rw [List.mem_toFinset, hv, mem_freeVars, hsp]
        rfl
      have hset' : (gmVars red).toFinset = freeVars (gmStrict hs approx) a.graph i := by
        ext v
        rw [List.mem_toFinset]
        exact h2 v
      refine ⟨x, ?_⟩
      have hmeas : Measurable fun y => gmDen (g.cl i).factor (override special y) := by
        have := ((gmLaws hs approx).meas (b.ok i)).comp (measurable_override (gmLaws hs approx) special)
        unfold evPairs at this
        rw [hmap] at this
        exact this
      have hi' := (integrableOut_iff hl hmeas (fun y => (gmDen_pos (b.ok i) _).le) x).1 hi
      rw [hset', show (fun y => ENNReal.ofReal (gmDen red y)) = _ from funext h3]
      rw [hset] at hi'
      unfold beliefI evPairs
      rw [hsp, hmap]
      exact hi') vrs hn hunobs r hm
  refine ⟨c, hc, fun out ho hmem x => ?_⟩
  rw [← hpost']
  refine hx out ho (fun v => ?_) x
  rw [hmem]
  unfold hiddenVars
  rw [Finset.mem_filter, List.mem_toFinset, List.mem_flatMap]
  exact ⟨fun ⟨h1, h2, h3, h4⟩ => ⟨⟨h1, h2, h3⟩, h4⟩, fun ⟨⟨h1, h2, h3⟩, h4⟩ => ⟨h1, h2, h3, h4⟩⟩

end Verif.CG
