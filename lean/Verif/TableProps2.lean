import Verif.TableProps

/-!
# C119 for dense and sparse factors, and where it fails
-/

namespace Verif
open Spec (Asg)
open Tab (Clean IsTable str pieces cells starts)

/-- The names of the variables as texts. -/
def nameTexts (vars : List Var) : List Tab.Text := vars.map String.toList

theorem map_len {vars : List Var} {x : Asg} : (vars.map x).length = (nameTexts vars).length := by
  simp [nameTexts]

/-- **C119 (dense).** The text of a dense factor is a table: the header has the names of the variables and `prob`; the
rows are all assignments, each once, in lexicographic order, with the value of the factor; and the cells of every row
stand below those of the header. -/
theorem C119_dense_partial (fmt : XF ℝ → Tab.Text) (hfmt : ∀ p, Clean (fmt p)) (f : Cat ℝ) (hf : Cat.WF f)
    (hne : f.vars ≠ []) (hv : ∀ v ∈ f.vars, Clean v.toList) (hc : ∀ v ∈ f.vars, f.card v ≤ 10000000) :
    ∃ rows, Lists f.vars f.card f.val rows ∧ (rows.map Prod.fst).Pairwise (List.Lex (· < ·)) ∧
      IsTable (f.repr fmt) (nameTexts f.vars ++ [['p', 'r', 'o', 'b']])
        (rows.map fun row => row.1.map str ++ [fmt row.2]) := by
  obtain ⟨h1, h2⟩ := C106_dense f hf
  refine ⟨f.distribution, h1, h2, ?_⟩
  have key := Tab.isTable (vars := nameTexts f.vars) (by simpa [nameTexts] using hne) (by
    intro v hv'
    obtain ⟨w, hw, rfl⟩ := List.mem_map.1 hv'
    exact hv w hw) (rows := f.distribution.map fun row => (row.1, fmt row.2)) (by
    intro row hr
    obtain ⟨r, hr', rfl⟩ := List.mem_map.1 hr
    obtain ⟨x, _, rfl⟩ := h1.sound r hr'
    exact map_len) (by
    intro row hr
    obtain ⟨r, hr', rfl⟩ := List.mem_map.1 hr
    exact hfmt _) (by
    intro row hr
    obtain ⟨r, hr', rfl⟩ := List.mem_map.1 hr
    obtain ⟨x, hx, rfl⟩ := h1.sound r hr'
    intro i hi
    obtain ⟨v, hvv, rfl⟩ := List.mem_map.1 hi
    exact lt_of_lt_of_le (hx v hvv) (hc v hvv))
  rw [List.map_map (l := f.distribution)] at key
  have e : f.repr fmt = Tab.table (nameTexts f.vars) (f.distribution.map fun row => (row.1, fmt row.2)) := by
    unfold Cat.repr Cat.distribution nameTexts
    rw [List.map_map]
    rfl
  rw [e]
  exact key

/-- **C119 (sparse).** The text of a sparse factor is a table of the stored entries, each once, with the value of the
factor; assignments that are not shown have the default value. -/
theorem C119_sparse_partial (fmt : XF ℝ → Tab.Text) (hfmt : ∀ p, Clean (fmt p)) (f : Sparse ℝ) (hf : Sparse.WF f)
    (hne : f.vars ≠ []) (hv : ∀ v ∈ f.vars, Clean v.toList) (hc : ∀ v ∈ f.vars, f.card v ≤ 10000000) :
    ∃ rows : List (List ℕ × XF ℝ), (rows.map Prod.fst).Nodup ∧
      (∀ row ∈ rows, ∃ x : Asg, (∀ v ∈ f.vars, x v < f.card v) ∧ row = (f.vars.map x, XF.exp (f.val x))) ∧
      (∀ x : Asg, (f.vars.map x, XF.exp (f.val x)) ∈ rows ∨ f.val x = f.dflt) ∧
      IsTable (f.repr fmt) (nameTexts f.vars ++ [['p', 'r', 'o', 'b']])
        (rows.map fun row => row.1.map str ++ [fmt row.2]) := by
  have hs : ∀ row ∈ f.table.map (fun e => (e.1, XF.exp e.2)), ∃ x : Asg, (∀ v ∈ f.vars, x v < f.card v) ∧
      row = (f.vars.map x, XF.exp (f.val x)) := by
    intro row hr
    obtain ⟨e, he, rfl⟩ := List.mem_map.1 hr
    have hk : e.1 ∈ Dict.keys f.table := List.mem_map.2 ⟨e, he, rfl⟩
    have := hf.range _ hk
    rw [hf.cards_eq] at this
    obtain ⟨x, hx, h2⟩ := exists_asg hf.nodup this
    refine ⟨x, hx, ?_⟩
    have : Dict.get? f.table e.1 = some e.2 := Dict.get?_of_mem hf.keys he
    unfold Sparse.val
    rw [h2, this]
    rfl
  refine ⟨f.table.map fun e => (e.1, XF.exp e.2), ?_, hs, ?_, ?_⟩
  · rw [List.map_map]
    exact hf.keys
  · intro x
    unfold Sparse.val
    cases h : Dict.get? f.table (f.vars.map x) with
    | none => exact Or.inr rfl
    | some y => exact Or.inl (List.mem_map.2 ⟨(f.vars.map x, y), Dict.mem_of_get? h, rfl⟩)
  have key := Tab.isTable (vars := nameTexts f.vars) (by simpa [nameTexts] using hne) (by
    intro v hv'
    obtain ⟨w, hw, rfl⟩ := List.mem_map.1 hv'
    exact hv w hw) (rows := (f.table.map fun e => (e.1, XF.exp e.2)).map fun row => (row.1, fmt row.2)) (by
    intro row hr
    obtain ⟨r, hr', rfl⟩ := List.mem_map.1 hr
    obtain ⟨x, _, rfl⟩ := hs r hr'
    exact map_len) (by
    intro row hr
    obtain ⟨r, hr', rfl⟩ := List.mem_map.1 hr
    exact hfmt _) (by
    intro row hr
    obtain ⟨r, hr', rfl⟩ := List.mem_map.1 hr
    obtain ⟨x, hx, rfl⟩ := hs r hr'
    intro i hi
    obtain ⟨v, hvv, rfl⟩ := List.mem_map.1 hi
    exact lt_of_lt_of_le (hx v hvv) (hc v hvv))
  rw [List.map_map (l := List.map (fun e => (e.1, XF.exp e.2)) f.table)] at key
  have e : f.repr fmt = Tab.table (nameTexts f.vars) ((f.table.map fun e => (e.1, XF.exp e.2)).map
      fun row => (row.1, fmt row.2)) := by
    unfold Sparse.repr nameTexts
    rw [List.map_map]
    rfl
  rw [e]
  exact key

/-- **C119.** Different assignments have different rows: the digits of an index determine it. -/
theorem C119_rows_differ {a b : List ℕ} (v w : Tab.Text) (h : a.map str ++ [v] = b.map str ++ [w]) : a = b ∧ v = w := by
  obtain ⟨h1, h2⟩ := List.append_inj' h rfl
  exact ⟨List.map_injective_iff.2 (fun _ _ => Tab.str_inj) h1, by simpa using h2⟩

/-- **C119 violated.** The row of an index with eight digits does not stand below the header. -/
theorem C119_long_index_violated (fmt : XF ℝ → Tab.Text) (hfmt : ∀ p, Clean (fmt p)) (header : List Tab.Text)
    (rows : List (List Tab.Text)) :
    ¬ IsTable (Sparse.repr fmt ⟨["a"], [10000001], [([10000000], .fin 0)], .ninf⟩) header rows := by
  rintro ⟨l0, ls, h1, -, -, h4⟩
  obtain ⟨p, hp⟩ : ∃ p, p = fmt (XF.exp (.fin 0)) := ⟨_, rfl⟩
  have hcp : Clean p := hp ▸ hfmt _
  have e : Sparse.repr fmt ⟨["a"], [10000001], [([10000000], .fin 0)], .ninf⟩ =
      ['a', '\t', 'p', 'r', 'o', 'b'] ++ '\n' :: ((['1', '0', '0', '0', '0', '0', '0', '0', '\t'] ++ p) ++ '\n' :: []) := by
    unfold Sparse.repr
    dsimp only
    rw [List.map_cons, List.map_nil, List.map_cons, List.map_nil, ← hp]
    have h8 : str 10000000 = ['1', '0', '0', '0', '0', '0', '0', '0'] := by decide
    simp [Tab.table, Tab.spaceRow, Tab.joinTabs, Tab.tabsToCover, h8]
  rw [e, Tab.pieces_append (by decide), Tab.pieces_append (by
    rw [List.mem_append]
    rintro (h | h)
    · exact absurd h (by decide)
    · exact hcp.2.2 h)] at h1
  obtain ⟨rfl, h6⟩ := List.cons.inj h1
  have h2 : ls = [['1', '0', '0', '0', '0', '0', '0', '0', '\t'] ++ p] := by
    have : [['1', '0', '0', '0', '0', '0', '0', '0', '\t'] ++ p] ++ [([] : Tab.Text)] = ls ++ [[]] := h6
    exact (List.append_inj' this rfl).1.symm
  subst h2
  have h5 := h4 _ (List.mem_singleton.2 rfl)
  have e1 : starts 0 true (['1', '0', '0', '0', '0', '0', '0', '0', '\t'] ++ p) = [0, 16] := by
    have : starts 0 true (['1', '0', '0', '0', '0', '0', '0', '0', '\t'] ++ p) = 0 :: starts 16 true (p ++ []) := by
      simp [starts]
    rw [this, Tab.starts_cell hcp]
    rfl
  rw [e1] at h5
  exact absurd h5 (by decide)

/-- **C119 violated.** In the table of a factor without variables (the result of reducing all of them) the value does
not stand below `prob`. -/
theorem C119_no_variables_violated (fmt : XF ℝ → Tab.Text) (hfmt : ∀ p, Clean (fmt p)) (header : List Tab.Text)
    (rows : List (List Tab.Text)) : ¬ IsTable (Sparse.repr fmt ⟨[], [], [([], .fin 0)], .ninf⟩) header rows := by
  rintro ⟨l0, ls, h1, -, -, h4⟩
  obtain ⟨p, hp⟩ : ∃ p, p = fmt (XF.exp (.fin 0)) := ⟨_, rfl⟩
  have hcp : Clean p := hp ▸ hfmt _
  have e : Sparse.repr fmt ⟨[], [], [([], .fin 0)], .ninf⟩ = ['\t', 'p', 'r', 'o', 'b'] ++ '\n' :: (p ++ '\n' :: []) := by
    unfold Sparse.repr
    dsimp only
    rw [List.map_nil, List.map_cons, List.map_nil, ← hp]
    simp [Tab.table, Tab.spaceRow, Tab.joinTabs]
  rw [e, Tab.pieces_append (by decide), Tab.pieces_append hcp.2.2] at h1
  obtain ⟨rfl, h6⟩ := List.cons.inj h1
  have h2 : ls = [p] := by
    have : [p] ++ [([] : Tab.Text)] = ls ++ [[]] := h6
    exact (List.append_inj' this rfl).1.symm
  subst h2
  have h5 := h4 _ (List.mem_singleton.2 rfl)
  have e1 : starts 0 true p = [0] := by
    have := Tab.starts_cell hcp 0 []
    rw [List.append_nil] at this
    rw [this]
    rfl
  rw [e1] at h5
  exact absurd h5 (by decide)

/-! ### The hypotheses can be met -/

/-- A format that satisfies the assumption. -/
def exFmt (_ : XF ℝ) : Tab.Text := ['0', '.', '5']

theorem exFmt_clean (p : XF ℝ) : Clean (exFmt p) := ⟨by simp [exFmt], by simp [exFmt], by simp [exFmt]⟩

example : ∃ rows, IsTable (Sparse.exF.repr exFmt) [['a'], ['b'], ['p', 'r', 'o', 'b']] rows ∧ rows.length = 2 := by
  obtain ⟨rows, _, _, _, h⟩ := C119_sparse_partial exFmt exFmt_clean Sparse.exF Sparse.exF_regular.wf (by decide) (by
    intro v hv
    have : v = "a" ∨ v = "b" := by simpa [Sparse.exF] using hv
    rcases this with rfl | rfl <;> exact ⟨by decide, by decide, by decide⟩) (by
    intro v hv
    have : v = "a" ∨ v = "b" := by simpa [Sparse.exF] using hv
    rcases this with rfl | rfl <;> decide)
  refine ⟨_, h, ?_⟩
  obtain ⟨l0, ls, h1, _, h3, _⟩ := h
  have h4 := congrArg List.length h3
  have h5 := congrArg List.length h1
  rw [← h3]
  have h6 : (pieces '\n' (Sparse.exF.repr exFmt)).length = 4 := by
    have : Sparse.exF.repr exFmt = "a\tb\tprob\n0\t1\t0.5\n1\t2\t0.5\n".toList := by
      unfold Sparse.repr Sparse.exF
      simp only [List.map_cons, List.map_nil, exFmt]
      decide
    rw [this]
    decide
  simp only [List.length_cons, List.length_append, List.length_nil] at h5
  rw [List.length_map]
  omega

example : ∃ rows, IsTable ((Cat.mk0 ["a", "b"] [2, 3] fun _ => (.fin (1 : ℝ))).repr exFmt)
    [['a'], ['b'], ['p', 'r', 'o', 'b']] rows := by
  obtain ⟨rows, _, _, h⟩ := C119_dense_partial exFmt exFmt_clean (Cat.mk0 ["a", "b"] [2, 3] fun _ => (.fin (1 : ℝ)))
    (Cat.mk0_wf _ (by decide) rfl) (by simp [Cat.mk0, Cat.mk']) (by
    intro v hv
    have : v = "a" ∨ v = "b" := by simpa [Cat.mk0, Cat.mk'] using hv
    rcases this with rfl | rfl <;> exact ⟨by decide, by decide, by decide⟩) (by
    intro v hv
    have : v = "a" ∨ v = "b" := by simpa [Cat.mk0, Cat.mk'] using hv
    rcases this with rfl | rfl <;> decide)
  exact ⟨_, h⟩

end Verif
