import Verif.SigmaLemmas

/-!
# Properties of sigma points (C69, C70)
-/

namespace Verif.Sigma
open Matrix Gauss

variable {d q : ℕ}

/-! ### Specification -/

/-- The list of points has this mean: component by component the average. -/
def HasMean (l : List (Fin d → ℝ)) (m : Fin d → ℝ) : Prop :=
  ∀ i, (l.map fun p => p i).sum / l.length = m i

/-- The list of points has this covariance around `m`, dividing by the number of points. -/
def HasCov (l : List (Fin d → ℝ)) (m : Fin d → ℝ) (S : Matrix (Fin d) (Fin d) ℝ) : Prop :=
  ∀ i j, (l.map fun p => (p i - m i) * (p j - m j)).sum / l.length = S i j

/-- The transform applies `x ↦ A x + b` to every point it is given under these names. -/
def AppliesAffine (T : Transform) (names : List Var) (A : Matrix (Fin q) (Fin d) ℝ) (b : Fin q → ℝ) : Prop :=
  ∀ pts : List (Fin d → ℝ), T names ⟨d, pts⟩ = .ok ⟨q, pts.map fun x i => ∑ j, A i j * x j + b i⟩

theorem hasMean_meanOf (l : List (Fin d → ℝ)) : HasMean l (meanOf l) := by
  intro i
  unfold meanOf
  have : ∀ l : List (Fin d → ℝ), (l.map fun p => p i).sum = l.sum i := by
    intro l
    induction l with
    | nil => rfl
    | cons p l ih => rw [List.map_cons, List.sum_cons, ih, List.sum_cons, Pi.add_apply]
  rw [this, Pi.smul_apply, smul_eq_mul, div_eq_inv_mul]

theorem hasCov_covOf (l : List (Fin d → ℝ)) : HasCov l (meanOf l) (covOf l) := by
  intro i j
  unfold covOf
  generalize meanOf l = m
  have : ∀ l : List (Fin d → ℝ), (l.map fun p => (p i - m i) * (p j - m j)).sum
      = (l.map fun p => vecMulVec (p - m) (p - m)).sum i j := by
    intro l
    induction l with
    | nil => rfl
    | cons p l ih =>
      rw [List.map_cons, List.sum_cons, ih, List.map_cons, List.sum_cons, Matrix.add_apply, vecMulVec_apply]
      rfl
  rw [this, Matrix.smul_apply, smul_eq_mul, div_eq_inv_mul]

theorem pts_params (m : Fin d → ℝ) (L : Matrix (Fin d) (Fin d) ℝ) :
    gaussianParams ⟨d, pointsOf m L⟩ = .ok ((L * Lᵀ, covShape d), m) := by
  unfold gaussianParams
  rw [if_neg (pointsOf_ne m L)]
  dsimp only
  rw [pointsOf_cov, pointsOf_mean]

theorem sigmaPoints_eq {g g' : Gauss d} {v : CovF d} (h : g.getCov = .ok (g', v)) (hp : v.cov.PosDef) :
    ∃ L, IsChol L v.cov ∧ sigmaPoints g = .ok (g', ⟨d, pointsOf v.mean L⟩) := by
  obtain ⟨L, hL, e⟩ := npChol_ok hp
  refine ⟨L, hL, ?_⟩
  unfold sigmaPoints
  rw [h]
  dsimp only [bind, Except.bind]
  rw [e]

/-! ### C69 -/

/-- **C69.** For every Gaussian whose covariance parameters can be read and are positive definite, the sigma points
are computed. There are `2 d + 1` of them and they have the mean and covariance of the Gaussian, and these are what
the function that converts points to parameters returns. (For one variable it returns the covariance as an array
without dimensions.) -/
theorem C69_sigma_points {g g' : Gauss d} {v : CovF d} (h : g.getCov = .ok (g', v)) (hp : v.cov.PosDef) :
    ∃ pts : List (Fin d → ℝ), sigmaPoints g = .ok (g', ⟨d, pts⟩) ∧ pts.length = 2 * d + 1 ∧
      HasMean pts v.mean ∧ HasCov pts v.mean v.cov ∧
      gaussianParams ⟨d, pts⟩ = .ok ((v.cov, if d = 1 then [] else [d, d]), v.mean) := by
  obtain ⟨L, hL, e⟩ := sigmaPoints_eq h hp
  have h1 := hasMean_meanOf (pointsOf v.mean L)
  have h2 := hasCov_covOf (pointsOf v.mean L)
  rw [pointsOf_mean] at h1 h2
  rw [pointsOf_cov, hL.prod] at h2
  refine ⟨_, e, pointsOf_length _ _, h1, h2, ?_⟩
  rw [pts_params, hL.prod]
  rfl

/-- **C69, the other Gaussians.** If the covariance parameters cannot be read, the same exception is raised; if
the covariance is symmetric but not positive definite, a `LinAlgError` is. -/
theorem C69_raises {g : Gauss d} :
    (∀ e, g.getCov = .error e → sigmaPoints g = .error e) ∧
    (∀ g' v, g.getCov = .ok (g', v) → v.cov.IsSymm → ¬ v.cov.PosDef → sigmaPoints g = .error .linAlgError) := by
  constructor
  · intro e h
    unfold sigmaPoints
    rw [h]
    rfl
  · intro g' v h hs hp
    unfold sigmaPoints
    rw [h]
    dsimp only [bind, Except.bind]
    rw [npChol_error (by rwa [lowerSym_eq hs])]

/-- The Cholesky factor is unique, so nothing in the model depends on a choice. -/
theorem C69_unique {L M S : Matrix (Fin d) (Fin d) ℝ} (hL : IsChol L S) (hM : IsChol M S) : L = M := hL.unique hM

/-- The points of a list of arrays put together. -/
theorem C69_list {l : List (List (Fin d → ℝ))} (hl : l.flatten ≠ []) :
    ∃ S m, listParams l = .ok ⟨d, ((S, covShape d), m)⟩ ∧ HasMean l.flatten m ∧ HasCov l.flatten m S := by
  refine ⟨_, _, ?_, hasMean_meanOf _, hasCov_covOf _⟩
  have h0 : l ≠ [] := by
    rintro rfl
    exact hl rfl
  unfold listParams hcat
  rw [if_neg h0]
  dsimp only [bind, Except.bind]
  unfold gaussianParams
  rw [if_neg hl]

theorem exA_cov : exA.getCov = .ok (exA, exV) := rfl

example : ∃ pts : List (Fin 2 → ℝ), sigmaPoints exA = .ok (exA, ⟨2, pts⟩) ∧ pts.length = 5 ∧
    HasMean pts ![0, 1] ∧ HasCov pts ![0, 1] !![2, 1; 1, 2] := by
  obtain ⟨pts, h1, h2, h3, h4, -⟩ := C69_sigma_points exA_cov exS_posDef
  exact ⟨pts, h1, h2, h3, h4⟩

/-- A Gaussian whose covariance has positive determinant but is not positive definite. -/
example : ∃ g : Gauss 2, Made g ∧ ∃ g' v, g.getCov = .ok (g', v) ∧ v.cov.IsSymm ∧ ¬ v.cov.PosDef ∧
    sigmaPoints g = .error .linAlgError := by
  have hs : (!![-1, 0; 0, -1] : Matrix (Fin 2) (Fin 2) ℝ).IsSymm := by
    ext i j; fin_cases i <;> fin_cases j <;> simp
  have hmk := mkCan_ok (n := 2) (vars := ["a", "b"]) (c := ⟨!![-1, 0; 0, -1], 0, 0⟩) (by decide) rfl
  have hm : Made _ := Made.ofCan hs hmk
  have hg := good_mkCan (n := 2) (vars := ["a", "b"]) (c := ⟨!![-1, 0; 0, -1], 0, 0⟩) (by decide) rfl
    (vacParams (!![-1, 0; 0, -1] : Matrix (Fin 2) (Fin 2) ℝ)) hs
  have hd : (0 : ℝ) < (!![-1, 0; 0, -1] : Matrix (Fin 2) (Fin 2) ℝ).det := by
    rw [det_fin_two]; norm_num
  have hvac : vacParams (!![-1, 0; 0, -1] : Matrix (Fin 2) (Fin 2) ℝ) = false := by
    unfold vacParams
    simp only [decide_eq_false_iff_not]
    intro h
    have := h.1 0 0
    norm_num at this
  have hc := getCov_valid hg.toValid hvac hd
  have hinv : (!![-1, 0; 0, -1] : Matrix (Fin 2) (Fin 2) ℝ)⁻¹ = !![-1, 0; 0, -1] := by
    apply inv_eq_right_inv
    ext i j; fin_cases i <;> fin_cases j <;> simp
  have hn : ¬ ((!![-1, 0; 0, -1] : Matrix (Fin 2) (Fin 2) ℝ)⁻¹).PosDef := by
    rw [hinv]
    intro h
    have := h.diag_pos (i := 0)
    norm_num at this
  have hs' : ((!![-1, 0; 0, -1] : Matrix (Fin 2) (Fin 2) ℝ)⁻¹).IsSymm := hinv.symm ▸ hs
  exact ⟨_, hm, _, _, hc, hs', hn, C69_raises.2 _ _ hc hs' hn⟩

/-! ### C70 -/

/-- **C70.** If the points represent a mean and covariance and the transform is affine, then the joint parameters
computed from the points are those of the vector and its image: mean `(m, A m + b)` and covariance blocks `S`, `S Aᵀ`,
`A S`, `A S Aᵀ`. -/
theorem C70_affine {pts : List (Fin d → ℝ)} {m : Fin d → ℝ} {S : Matrix (Fin d) (Fin d) ℝ} {T : Transform}
    {names : List Var} {A : Matrix (Fin q) (Fin d) ℝ} {b : Fin q → ℝ} (hne : pts ≠ []) (hm : HasMean pts m)
    (hS : HasCov pts m S) (hT : AppliesAffine T names A b) :
    ∃ (J : Matrix (Fin (d + q)) (Fin (d + q)) ℝ) (μ : Fin (d + q) → ℝ),
      jointParams ⟨d, pts⟩ T names = .ok ⟨d + q, ((J, if d + q = 1 then [] else [d + q, d + q]), μ)⟩ ∧
      (∀ i, μ (Fin.castAdd q i) = m i) ∧ (∀ k, μ (Fin.natAdd d k) = ∑ j, A k j * m j + b k) ∧
      (∀ i j, J (Fin.castAdd q i) (Fin.castAdd q j) = S i j) ∧
      (∀ i k, J (Fin.castAdd q i) (Fin.natAdd d k) = ∑ j, S i j * A k j) ∧
      (∀ k i, J (Fin.natAdd d k) (Fin.castAdd q i) = ∑ j, A k j * S j i) ∧
      (∀ k l, J (Fin.natAdd d k) (Fin.natAdd d l) = ∑ i, ∑ j, A k i * S i j * A l j) := by
  have e1 : m = meanOf pts := by
    funext i
    rw [← hm i, hasMean_meanOf pts i]
  subst e1
  have e2 : S = covOf pts := by
    ext i j
    rw [← hS i j, hasCov_covOf pts i j]
  subst e2
  have e3 : List.zipWith Fin.append pts (pts.map fun x i => ∑ j, A i j * x j + b i)
      = pts.map fun x => stack A *ᵥ x + Fin.append 0 b := by
    rw [zipWith_self]
    refine List.map_congr_left fun x _ => ?_
    rw [stack_mulVec]
    rfl
  refine ⟨jointCov (covOf pts) A, Fin.append (meanOf pts) (A *ᵥ meanOf pts + b), ?_, ?_, ?_, ?_, ?_, ?_, ?_⟩
  · unfold jointParams
    rw [hT pts]
    dsimp only [bind, Except.bind]
    unfold vcat
    dsimp only
    rw [if_pos (by rw [List.length_map]), e3]
    dsimp only
    unfold gaussianParams
    dsimp only
    rw [if_neg (by simpa using hne), covOf_affine _ _ hne, meanOf_affine _ _ hne, stack_conj, stack_mulVec]
    rfl
  · intro i
    simp
  · intro k
    simp [mulVec, dotProduct]
  · intro i j
    simp [jointCov]
  · intro i k
    simp [jointCov, mul_apply]
  · intro k i
    simp [jointCov, mul_apply]
  · intro k l
    simp only [jointCov, reindex_apply, submatrix_apply, finSumFinEquiv_symm_apply_natAdd, fromBlocks_apply₂₂,
      mul_apply, transpose_apply]
    simp only [Finset.sum_mul]
    exact Finset.sum_comm

/-- **C70, any transform.** Whatever the transform is, if the joint parameters are computed, the block that belongs
to the untransformed variables is the mean and covariance of the points. -/
theorem C70_untransformed {pts : List (Fin d → ℝ)} {m : Fin d → ℝ} {S : Matrix (Fin d) (Fin d) ℝ} {T : Transform}
    {names : List Var} {r : Σ n, (Matrix (Fin n) (Fin n) ℝ × List ℕ) × (Fin n → ℝ)} (hm : HasMean pts m)
    (hS : HasCov pts m S) (h : jointParams ⟨d, pts⟩ T names = .ok r) :
    ∃ q J s μ, r = ⟨d + q, ((J, s), μ)⟩ ∧ (∀ i, μ (Fin.castAdd q i) = m i) ∧
      ∀ i j, J (Fin.castAdd q i) (Fin.castAdd q j) = S i j := by
  unfold jointParams at h
  obtain ⟨t, ht, h⟩ := py_bind_eq_ok.1 h
  obtain ⟨p, hp, h⟩ := py_bind_eq_ok.1 h
  obtain ⟨x, hx, h⟩ := py_bind_eq_ok.1 h
  unfold vcat at hp
  split at hp
  · next hlen =>
    cases hp
    unfold gaussianParams at hx
    dsimp only at hx hlen
    split at hx
    · cases hx
    · next hne =>
      cases hx
      cases h
      have hl : (List.zipWith Fin.append pts t.cols).length = pts.length := by
        rw [List.length_zipWith, ← hlen, min_self]
      have hmap : ∀ f : (Fin d → ℝ) → ℝ, (List.zipWith Fin.append pts t.cols).map
          (fun p => f fun i => p (Fin.castAdd t.dim i)) = pts.map f := by
        intro f
        rw [List.map_zipWith]
        simp only [Fin.append_left]
        have := congrArg (List.map f) (List.map_fst_zip (l₁ := pts) (l₂ := t.cols) hlen.le)
        rw [List.map_map] at this
        rw [← this, List.zip, List.map_zipWith]
        rfl
      have hmean : ∀ i, meanOf (List.zipWith Fin.append pts t.cols) (Fin.castAdd t.dim i) = m i := by
        intro i
        rw [← hasMean_meanOf, hl, ← hm i]
        rw [← hmap fun p => p i]
      refine ⟨t.dim, _, _, _, rfl, hmean, fun i j => ?_⟩
      rw [← hasCov_covOf, hl, ← hS i j, hmean, hmean]
      rw [← hmap fun p => (p i - m i) * (p j - m j)]
  · cases hp

/-- The transform `y = (x₀ + 2 x₁) + 3`. -/
def exT : Transform := fun _ p => .ok ⟨1, p.cols.map fun x _ => (List.ofFn x).getD 0 0 + 2 * (List.ofFn x).getD 1 0 + 3⟩

theorem exT_affine (names : List Var) : AppliesAffine (d := 2) exT names !![1, 2] ![3] := by
  intro pts
  unfold exT
  congr 1
  congr 1
  refine List.map_congr_left fun x _ => ?_
  funext i
  fin_cases i
  simp [Fin.sum_univ_two, List.ofFn_succ]

/-- The joint of `(x, x₀ + 2 x₁ + 3)` for a Gaussian `x`. -/
example : ∃ pts J μ, sigmaPoints exA = .ok (exA, ⟨2, pts⟩) ∧
    jointParams ⟨2, pts⟩ exT ["a", "b"] = .ok ⟨2 + 1, ((J, [3, 3]), μ)⟩ ∧ μ 2 = 5 ∧ J 2 2 = 14 ∧ J 0 2 = 4 := by
  obtain ⟨pts, h1, h2, h3, h4, -⟩ := C69_sigma_points exA_cov exS_posDef
  obtain ⟨J, μ, e, -, f2, -, f4, -, f6⟩ := C70_affine (by intro h; simp [h] at h2) h3 h4 (exT_affine ["a", "b"])
  refine ⟨pts, J, μ, h1, e, ?_, ?_, ?_⟩
  · have := f2 0
    simp [Fin.sum_univ_two, exV] at this
    norm_num at this
    exact this
  · have := f6 0 0
    simp [Fin.sum_univ_two, exV, exS] at this
    norm_num at this
    exact this
  · have := f4 0 0
    simp [Fin.sum_univ_two, exV, exS] at this
    norm_num at this
    exact this

end Verif.Sigma
