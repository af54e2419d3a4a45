import Verif.PlotModel
import Mathlib.Analysis.SpecialFunctions.Log.ENNRealLog

/-!
# The convergence plot shows the distances (C120)
-/

namespace Verif.Plot

/-- What a curve shall show for a distance: the distance or its extended logarithm. -/
noncomputable def shown (log : Bool) (d : EReal) : EReal := if log then ENNReal.log d.toENNReal else d

theorem npLogE_eq (d : EReal) : npLogE d = ENNReal.log d.toENNReal := by
  unfold npLogE
  split
  · next h => rw [h]; simp
  · next h =>
    split
    · next h0 => rw [EReal.toENNReal_of_nonpos h0]; simp
    · next h0 =>
      push Not at h0
      have hb : d ≠ ⊥ := fun e => by rw [e] at h0; simp at h0
      lift d to ℝ using ⟨h, hb⟩
      have hp : 0 < d := by exact_mod_cast h0
      rw [EReal.toReal_coe, EReal.toENNReal_of_ne_top h, EReal.toReal_coe, ENNReal.log_ofReal_of_pos hp]

theorem npLogE_fun : npLogE = fun d => ENNReal.log d.toENNReal := funext npLogE_eq

theorem foldl_max (l : List EReal) (x : EReal) :
    x ≤ l.foldl max x ∧ (∀ y ∈ l, y ≤ l.foldl max x) ∧ (l.foldl max x = x ∨ l.foldl max x ∈ l) := by
  induction l generalizing x with
  | nil => simp
  | cons y l ih =>
    obtain ⟨h1, h2, h3⟩ := ih (max x y)
    rw [List.foldl_cons]
    refine ⟨(le_max_left _ _).trans h1, ?_, ?_⟩
    · intro z hz
      rcases List.mem_cons.1 hz with rfl | hz
      · exact (le_max_right _ _).trans h1
      · exact h2 z hz
    · rcases h3 with h3 | h3
      · rw [h3]
        rcases max_choice x y with h | h
        · left; exact h
        · right; rw [h]; simp
      · right; simp [h3]

theorem pyMax_ok {l : List EReal} (h : l ≠ []) : ∃ m, pyMax l = .ok m ∧ m ∈ l ∧ ∀ y ∈ l, y ≤ m := by
  cases l with
  | nil => exact absurd rfl h
  | cons x t =>
    obtain ⟨h1, h2, h3⟩ := foldl_max t x
    refine ⟨_, rfl, ?_, ?_⟩
    · rcases h3 with h3 | h3
      · rw [h3]; simp
      · simp [h3]
    · intro y hy
      rcases List.mem_cons.1 hy with rfl | hy
      · exact h1
      · exact h2 y hy

theorem shown_map (log : Bool) (dists : List EReal) :
    (if log then dists.map npLogE else dists) = dists.map (shown log) := by
  cases log
  · show dists = dists.map fun d => d
    simp
  · rw [npLogE_fun]
    rfl

theorem getElem?_twice {α : Type} (l : List α) (i : Nat) (b : Bool) :
    (l.flatMap fun d => [d, d])[2 * i + b.toNat]? = l[i]? := by
  induction l generalizing i with
  | nil => simp
  | cons x l ih =>
    rw [List.flatMap_cons]
    cases i with
    | zero => cases b <;> simp
    | succ i =>
      have : 2 * (i + 1) + b.toNat = (2 * i + b.toNat) + 1 + 1 := by ring
      rw [this]
      simpa using ih i

theorem length_twice {α : Type} (l : List α) : (l.flatMap fun d => [d, d]).length = 2 * l.length := by
  induction l with
  | nil => rfl
  | cons x l ih =>
    rw [List.flatMap_cons, List.length_append, ih]
    simp
    ring

/-- Half as much again is more, for a positive finite number. -/
theorem lt_more {m : EReal} (h0 : 0 < m) (h1 : m ≠ ⊤) : m < m * ((3 / 2 : ℝ) : EReal) := by
  have h2 : m ≠ ⊥ := fun h => by rw [h] at h0; exact absurd h0 (by simp)
  lift m to ℝ using ⟨h1, h2⟩
  rw [← EReal.coe_mul, EReal.coe_lt_coe_iff]
  have : (0 : ℝ) < m := by exact_mod_cast h0
  linarith

/-- **C120.** If some distance is finite and the largest finite value to be shown is positive, the plot is drawn; every
distance is drawn twice, at `i` and at `i + 1/2`. A finite one has its own height and is not red. An infinite one is
red, and higher than all finite ones. There is a legend exactly if there is an infinite distance. -/
theorem C120_convergence_partial (log : Bool) (dists : List EReal)
    (hpos : ∃ d ∈ dists, d ≠ ⊤ ∧ 0 < shown log d) :
    ∃ fig, convergence log dists = .ok fig ∧ fig.iterations.length = 2 * dists.length ∧
      fig.curve.length = 2 * dists.length ∧ fig.red.length = 2 * dists.length ∧
      (fig.legend = true ↔ ⊤ ∈ dists) ∧
      ∀ i (hi : i < dists.length) (b : Bool),
        fig.iterations[2 * i + b.toNat]? = some ((i : ℝ) + if b then 1 / 2 else 0) ∧
        (dists[i] ≠ ⊤ → fig.curve[2 * i + b.toNat]? = some (shown log dists[i]) ∧
          fig.red[2 * i + b.toNat]? = some none) ∧
        (dists[i] = ⊤ → ∃ y, fig.curve[2 * i + b.toNat]? = some y ∧ fig.red[2 * i + b.toNat]? = some (some y) ∧
          ∀ d ∈ dists, d ≠ ⊤ → shown log d < y) := by
  have htop : ∀ d : EReal, shown log d = ⊤ ↔ d = ⊤ := by
    intro d
    unfold shown
    rw [← npLogE_eq]
    unfold npLogE
    cases log with
    | false => simp
    | true =>
      simp only [if_true]
      constructor
      · intro h
        by_contra hd
        rw [if_neg hd] at h
        split at h
        · exact absurd h (by simp)
        · exact absurd h (EReal.coe_ne_top _)
      · rintro rfl
        simp
  obtain ⟨ds, hds⟩ : ∃ ds, ds = (dists.map (shown log)).flatMap fun d => [d, d] := ⟨_, rfl⟩
  have hmem : ∀ y, y ∈ ds ↔ ∃ d ∈ dists, shown log d = y := by
    intro y
    rw [hds]
    simp [eq_comm]
  have hne : ds.filter (· ≠ ⊤) ≠ [] := by
    obtain ⟨d, hd, h1, _⟩ := hpos
    intro h
    have := (List.filter_eq_nil_iff.1 h) (shown log d) ((hmem _).2 ⟨d, hd, rfl⟩)
    simp only [ne_eq, decide_not, Bool.not_eq_true', decide_eq_false_iff_not, not_not] at this
    exact h1 ((htop d).1 this)
  obtain ⟨m, hm, hm1, hm2⟩ := pyMax_ok hne
  rw [List.mem_filter] at hm1
  have hmt : m ≠ ⊤ := by simpa using hm1.2
  have hge : ∀ d ∈ dists, d ≠ ⊤ → shown log d ≤ m := by
    intro d hd h1
    refine hm2 _ (List.mem_filter.2 ⟨(hmem _).2 ⟨d, hd, rfl⟩, ?_⟩)
    simpa [htop] using h1
  have hm0 : 0 < m := by
    obtain ⟨d, hd, h1, h2⟩ := hpos
    exact lt_of_lt_of_le h2 (hge d hd h1)
  have hlt := lt_more hm0 hmt
  have hlen : ds.length = 2 * dists.length := by rw [hds, length_twice, List.length_map]
  unfold convergence
  rw [shown_map]
  dsimp only
  rw [← hds, hm, py_bind_ok]
  refine ⟨_, rfl, by simp [hlen], by simp [hlen], by simp [hlen], ?_, ?_⟩
  · simp only [bne_iff_ne, ne_eq]
    rw [List.length_filter_eq_length_iff]
    constructor
    · intro h
      by_contra hn
      refine h fun y hy => ?_
      obtain ⟨d, hd, rfl⟩ := (hmem y).1 hy
      have : d ≠ ⊤ := fun e => hn (e ▸ hd)
      simpa [htop] using this
    · intro h h'
      have := h' (shown log ⊤) ((hmem _).2 ⟨⊤, h, rfl⟩)
      simp [htop] at this
  intro i hi b
  have hget : ds[2 * i + b.toNat]? = some (shown log dists[i]) := by
    rw [hds, getElem?_twice, List.getElem?_map, List.getElem?_eq_getElem hi]
    rfl
  have hlt2 : 2 * i + b.toNat < ds.length := by
    rw [hlen]
    cases b <;> simp <;> omega
  refine ⟨?_, fun h => ⟨?_, ?_⟩, fun h => ⟨m * ((3 / 2 : ℝ) : EReal), ?_, ?_, ?_⟩⟩
  · rw [List.getElem?_map, List.getElem?_range hlt2]
    cases b <;> simp <;> ring
  · rw [List.getElem?_map, hget, Option.map_some, if_pos ((htop _).not.2 h)]
  · rw [List.getElem?_map, List.getElem?_map, hget, Option.map_some, Option.map_some, if_pos ((htop _).not.2 h),
      if_pos (ne_of_lt (lt_of_le_of_lt (hge _ (List.getElem_mem hi) h) hlt))]
  · rw [List.getElem?_map, hget, Option.map_some, if_neg (not_not.2 ((htop _).2 h))]
  · rw [List.getElem?_map, List.getElem?_map, hget, Option.map_some, Option.map_some, if_neg (not_not.2 ((htop _).2 h)),
      if_neg (not_not.2 rfl)]
  · intro d hd h1
    exact lt_of_le_of_lt (hge d hd h1) hlt

/-- **C120 violated.** Without a finite distance - in particular before any message was passed, or on a graph with one
cluster - the plot raises `ValueError`. -/
theorem C120_no_finite (log : Bool) (dists : List EReal) (h : ∀ d ∈ dists, d = ⊤) :
    convergence log dists = .error .valueError := by
  have hf : (((dists.map (shown log)).flatMap fun d => [d, d]).filter (· ≠ ⊤)) = [] := by
    rw [List.filter_eq_nil_iff]
    intro y hy
    simp only [List.mem_flatMap, List.mem_map, List.mem_cons, List.not_mem_nil, or_false, or_self] at hy
    obtain ⟨_, ⟨d, hd, rfl⟩, rfl⟩ := hy
    rw [h d hd]
    cases log <;> simp [shown, npLogE]
  unfold convergence
  rw [shown_map]
  dsimp only
  rw [hf]
  rfl

/-- **C120 violated.** If all finite distances are zero, the infinite ones are drawn at zero, and everything is red. -/
theorem C120_zero_violated : convergence false [⊤, 0] = .ok ⟨[0, 1 / 2, 1, 3 / 2], [0, 0, 0, 0],
    [some 0, some 0, some 0, some 0], true⟩ := by
  unfold convergence
  simp [pyMax, List.range, List.range.loop, bind, Except.bind]

/-- **C120 violated.** With `log=True` and finite distances below one, an infinite distance is drawn below the finite
ones. -/
theorem C120_log_violated : convergence true [⊤, ((Real.exp (-2) : ℝ) : EReal)] = .ok ⟨[0, 1 / 2, 1, 3 / 2],
    [((-3 : ℝ) : EReal), ((-3 : ℝ) : EReal), ((-2 : ℝ) : EReal), ((-2 : ℝ) : EReal)],
    [some ((-3 : ℝ) : EReal), some ((-3 : ℝ) : EReal), none, none], true⟩ := by
  have h1 : npLogE ((Real.exp (-2) : ℝ) : EReal) = ((-2 : ℝ) : EReal) := by
    unfold npLogE
    rw [if_neg (EReal.coe_ne_top _), if_neg (by
      rw [not_le]
      exact_mod_cast Real.exp_pos _), EReal.toReal_coe, Real.log_exp]
  have h2 : npLogE ⊤ = ⊤ := by simp [npLogE]
  have h3 : ((-2 : ℝ) : EReal) * ((3 / 2 : ℝ) : EReal) = ((-3 : ℝ) : EReal) := by
    rw [← EReal.coe_mul]
    norm_num
  have h4 : ((-2 : ℝ) : EReal) ≠ ⊤ := EReal.coe_ne_top _
  have h5 : ((-2 : ℝ) : EReal) ≠ ((-3 : ℝ) : EReal) := by
    intro h
    have := EReal.coe_injective h
    norm_num at this
  unfold convergence
  simp only [if_true, List.map_cons, List.map_nil, h1, h2, List.flatMap_cons, List.flatMap_nil, List.cons_append,
    List.nil_append, List.filter_cons, ne_eq, not_true_eq_false, decide_false, h4, not_false_eq_true, decide_true,
    List.filter_nil, Bool.false_eq_true, if_false, pyMax, List.foldl_cons, List.foldl_nil, max_self, py_bind_ok, h3, h5,
    List.length_cons, List.length_nil]
  simp [List.range, List.range.loop]

/-! ### The hypotheses can be met -/

example : ∃ fig, convergence false [⊤, 3, 1] = .ok fig ∧ fig.legend = true := by
  obtain ⟨fig, h1, _, _, _, h2, _⟩ := C120_convergence_partial false [⊤, 3, 1] ⟨3, by simp, by decide, by
    simp [shown]⟩
  exact ⟨fig, h1, h2.2 (by simp)⟩

end Verif.Plot
