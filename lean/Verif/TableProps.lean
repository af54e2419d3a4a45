import Verif.TableModel
import Verif.ListProps

/-!
# The text of a categorical factor is a readable table (C119)
-/

namespace Verif.Tab

/-! ### Specification -/

/-- The parts of a text between the separators. -/
def pieces (sep : Char) : Text → List Text
  | [] => [[]]
  | c :: t =>
    if c = sep then [] :: pieces sep t
    else match pieces sep t with
      | [] => [[c]]
      | p :: ps => (c :: p) :: ps

/-- The cells of a line: what stands between the tabs. -/
def cells (l : Text) : List Text := (pieces '\t' l).filter (· ≠ [])

/-- The columns on the screen where the cells of a line begin, with tab stops every eight columns: `pos` is the current
column, `fresh` tells whether the next character begins a cell. -/
def starts (pos : Nat) (fresh : Bool) : Text → List Nat
  | [] => []
  | c :: t =>
    if c = '\t' then starts ((pos / 8 + 1) * 8) true t
    else if fresh then pos :: starts (pos + 1) false t else starts (pos + 1) false t

/-- A text that is a table with the given header and rows: one line each, cells separated by tabs, and the cells of
every row stand below those of the header. -/
def IsTable (text : Text) (header : List Text) (rows : List (List Text)) : Prop :=
  ∃ l0 ls, pieces '\n' text = l0 :: (ls ++ [[]]) ∧ cells l0 = header ∧ ls.map cells = rows ∧
    ∀ l ∈ ls, starts 0 true l = starts 0 true l0

/-- A text that can stand in a cell. -/
def Clean (w : Text) : Prop := w ≠ [] ∧ '\t' ∉ w ∧ '\n' ∉ w

/-! ### Lemmas -/

theorem pieces_ne (sep : Char) (t : Text) : pieces sep t ≠ [] := by
  cases t with
  | nil => simp [pieces]
  | cons c t =>
    unfold pieces
    split
    · simp
    · cases pieces sep t <;> simp

theorem pieces_append {sep : Char} {w : Text} (h : sep ∉ w) (t : Text) :
    pieces sep (w ++ sep :: t) = w :: pieces sep t := by
  induction w with
  | nil => simp [pieces]
  | cons c w ih =>
    have hc : c ≠ sep := by rintro rfl; simp at h
    rw [List.cons_append, pieces, if_neg hc, ih (fun hh => h (by simp [hh]))]

theorem pieces_self {sep : Char} {w : Text} (h : sep ∉ w) : pieces sep w = [w] := by
  induction w with
  | nil => simp [pieces]
  | cons c w ih =>
    have hc : c ≠ sep := by rintro rfl; simp at h
    rw [pieces, if_neg hc, ih (fun hh => h (by simp [hh]))]

theorem cells_append {w : Text} (h : Clean w) (t : Text) : cells (w ++ '\t' :: t) = w :: cells t := by
  unfold cells
  rw [pieces_append h.2.1, List.filter_cons, if_pos (by simpa using h.1)]

theorem cells_tab (t : Text) : cells ('\t' :: t) = cells t := by
  unfold cells
  rw [pieces, if_pos rfl, List.filter_cons, if_neg (by simp)]

theorem cells_tabs (k : Nat) (t : Text) : cells (List.replicate k '\t' ++ t) = cells t := by
  induction k with
  | zero => rfl
  | succ k ih => rw [List.replicate_succ, List.cons_append, cells_tab, ih]

theorem cells_self {w : Text} (h : Clean w) : cells w = [w] := by
  unfold cells
  rw [pieces_self h.2.1]
  simp [h.1]

theorem starts_word {w : Text} (h : '\t' ∉ w) (p : Nat) (t : Text) :
    starts p false (w ++ t) = starts (p + w.length) false t := by
  induction w generalizing p with
  | nil => simp
  | cons c w ih =>
    have hc : c ≠ '\t' := by rintro rfl; simp at h
    rw [List.cons_append, starts, if_neg hc, if_neg (by simp), ih (fun hh => h (by simp [hh]))]
    congr 1
    simp only [List.length_cons]
    omega

theorem starts_cell {w : Text} (h : Clean w) (p : Nat) (t : Text) :
    starts p true (w ++ t) = p :: starts (p + w.length) false t := by
  obtain ⟨h1, h2, -⟩ := h
  cases w with
  | nil => exact absurd rfl h1
  | cons c w =>
    have hc : c ≠ '\t' := by rintro rfl; simp at h2
    rw [List.cons_append, starts, if_neg hc, if_pos rfl, starts_word (fun hh => h2 (by simp [hh]))]
    congr 2
    simp only [List.length_cons]
    omega

theorem starts_tabs (k q : Nat) (t : Text) :
    starts (q * 8) true (List.replicate k '\t' ++ t) = starts ((q + k) * 8) true t := by
  induction k generalizing q with
  | zero => simp
  | succ k ih =>
    rw [List.replicate_succ, List.cons_append, starts, if_pos rfl]
    have : q * 8 / 8 + 1 = q + 1 := by omega
    rw [this, ih]
    congr 2
    omega

/-- The first column of the next cell of the header. -/
theorem starts_head {w : Text} (h : Clean w) (q : Nat) (t : Text) :
    starts (q * 8) true (w ++ '\t' :: t) = q * 8 :: starts ((q + tabsToCover w) * 8) true t := by
  rw [starts_cell h, starts, if_pos rfl]
  have : (q * 8 + w.length) / 8 + 1 = q + tabsToCover w := by
    unfold tabsToCover
    omega
  rw [this]

/-- The first column of the next cell of a row. -/
theorem starts_row {w : Text} (h : Clean w) (hl : w.length < 8) (q k : Nat) (t : Text) :
    starts (q * 8) true (w ++ (List.replicate (k + 1) '\t' ++ t)) = q * 8 :: starts ((q + (k + 1)) * 8) true t := by
  rw [starts_cell h, List.replicate_succ, List.cons_append, starts, if_pos rfl]
  have : (q * 8 + w.length) / 8 + 1 = q + 1 := by omega
  rw [this, starts_tabs]
  congr 3
  omega

/-! ### Lines of the table -/

theorem str_clean (a : Nat) : Clean (str a) := by
  refine ⟨Nat.toDigits_ne_nil, ?_, ?_⟩
  · intro h
    have := Nat.isDigit_of_mem_toDigits (by omega) (by omega) h
    simp [Char.isDigit] at this
  · intro h
    have := Nat.isDigit_of_mem_toDigits (by omega) (by omega) h
    simp [Char.isDigit] at this

theorem str_inj {a b : Nat} (h : str a = str b) : a = b := by
  have := congrArg (fun l => Nat.ofDigitChars 10 l 0) h
  simpa [str, Nat.ofDigitChars_ten_toDigits] using this

theorem str_short {a : Nat} (h : a < 10000000) : (str a).length < 8 := by
  have := (Nat.length_toDigits_le_iff (b := 10) (n := a) (k := 7) (by omega) (by omega)).2 (by simpa using h)
  unfold str
  omega

/-- The text of a row, without the end of the line. -/
def rowText : List Text → List Nat → Text → Text
  | v :: vs, a :: as, value => str a ++ (List.replicate (tabsToCover v) '\t' ++ rowText vs as value)
  | _, _, value => value

/-- The text of the header, without the end of the line. -/
def headText : List Text → Text
  | [] => ['p', 'r', 'o', 'b']
  | v :: vs => v ++ '\t' :: headText vs

theorem spaceRow_eq {vars : List Text} {a : List Nat} (h : a.length = vars.length) (value : Text) :
    spaceRow a value (vars.map (fun v => List.replicate (tabsToCover v) '\t') ++ [['\n']]) =
      rowText vars a value ++ ['\n'] := by
  unfold spaceRow
  induction vars generalizing a with
  | nil =>
    obtain rfl := List.length_eq_zero_iff.1 h
    simp [rowText]
  | cons v vs ih =>
    cases a with
    | nil => simp at h
    | cons i as =>
      have := ih (a := as) (by simpa using h)
      simp only [List.map_cons, List.cons_append, List.zipWith_cons_cons, List.flatten_cons, rowText]
      rw [this]
      simp

theorem head_eq {vars : List Text} (h : vars ≠ []) :
    joinTabs vars ++ ['\t', 'p', 'r', 'o', 'b', '\n'] = headText vars ++ ['\n'] := by
  induction vars with
  | nil => exact absurd rfl h
  | cons v vs ih =>
    cases vs with
    | nil => simp [joinTabs, headText]
    | cons w vs =>
      have := ih (by simp)
      rw [joinTabs, headText, List.append_assoc, List.cons_append, this]
      · simp
      · simp

theorem table_eq {vars : List Text} (h : vars ≠ []) {rows : List (List Nat × Text)}
    (hr : ∀ row ∈ rows, row.1.length = vars.length) :
    table vars rows = headText vars ++ '\n' :: (rows.map fun row => rowText vars row.1 row.2 ++ ['\n']).flatten := by
  unfold table
  dsimp only
  rw [head_eq h]
  have key : ∀ s : Text, rows.foldl (fun s row => s ++ spaceRow row.1 row.2
      (vars.map (fun v => List.replicate (tabsToCover v) '\t') ++ [['\n']])) s =
      s ++ (rows.map fun row => rowText vars row.1 row.2 ++ ['\n']).flatten := by
    induction rows with
    | nil => intro s; simp
    | cons row rows ih =>
      intro s
      rw [List.foldl_cons, ih (fun r hr' => hr r (by simp [hr'])), spaceRow_eq (hr row (by simp))]
      simp
  rw [key]
  simp

theorem pieces_lines {ls : List Text} (h : ∀ l ∈ ls, '\n' ∉ l) :
    pieces '\n' (ls.map fun l => l ++ ['\n']).flatten = ls ++ [[]] := by
  induction ls with
  | nil => simp [pieces]
  | cons l ls ih =>
    rw [List.map_cons, List.flatten_cons, List.append_assoc, List.cons_append, List.nil_append,
      pieces_append (h l (by simp)), ih (fun l' hl' => h l' (by simp [hl'])), List.cons_append]

theorem prob_clean : Clean ['p', 'r', 'o', 'b'] := ⟨by simp, by decide, by decide⟩

theorem headText_line {vars : List Text} (h : ∀ v ∈ vars, Clean v) : '\n' ∉ headText vars := by
  induction vars with
  | nil => decide
  | cons v vs ih =>
    rw [headText, List.mem_append, List.mem_cons]
    rintro (h1 | h1 | h1)
    · exact (h v (by simp)).2.2 h1
    · exact absurd h1 (by decide)
    · exact ih (fun w hw => h w (by simp [hw])) h1

theorem rowText_line {vars : List Text} {a : List Nat} {value : Text} (hv : Clean value) : '\n' ∉ rowText vars a value := by
  induction vars generalizing a with
  | nil => simpa [rowText] using hv.2.2
  | cons v vs ih =>
    cases a with
    | nil => simpa [rowText] using hv.2.2
    | cons i as =>
      rw [rowText, List.mem_append, List.mem_append]
      rintro (h1 | h1 | h1)
      · exact (str_clean i).2.2 h1
      · exact absurd (List.eq_of_mem_replicate h1) (by decide)
      · exact ih h1

theorem cells_head {vars : List Text} (h : ∀ v ∈ vars, Clean v) : cells (headText vars) = vars ++ [['p', 'r', 'o', 'b']] := by
  induction vars with
  | nil => exact cells_self prob_clean
  | cons v vs ih => rw [headText, cells_append (h v (by simp)), ih (fun w hw => h w (by simp [hw])), List.cons_append]

theorem cells_row {vars : List Text} {a : List Nat} {value : Text} (hl : a.length = vars.length) (hv : Clean value) :
    cells (rowText vars a value) = a.map str ++ [value] := by
  induction vars generalizing a with
  | nil =>
    obtain rfl := List.length_eq_zero_iff.1 hl
    exact cells_self hv
  | cons v vs ih =>
    cases a with
    | nil => simp at hl
    | cons i as =>
      rw [rowText, tabsToCover, List.replicate_succ, List.cons_append, cells_append (str_clean i), cells_tabs,
        ih (by simpa using hl), List.map_cons, List.cons_append]

theorem starts_eq {vars : List Text} {a : List Nat} {value : Text} (h : ∀ v ∈ vars, Clean v) (hl : a.length = vars.length)
    (hv : Clean value) (ha : ∀ i ∈ a, i < 10000000) (q : Nat) :
    starts (q * 8) true (rowText vars a value) = starts (q * 8) true (headText vars) := by
  induction vars generalizing a q with
  | nil =>
    obtain rfl := List.length_eq_zero_iff.1 hl
    have e1 := starts_cell hv (q * 8) []
    have e2 := starts_cell prob_clean (q * 8) []
    rw [List.append_nil] at e1 e2
    rw [rowText, headText, e1, e2]
    · rfl
    · intro v vs a as _ h2
      cases h2
  | cons v vs ih =>
    cases a with
    | nil => simp at hl
    | cons i as =>
      rw [rowText, headText, starts_head (h v (by simp))]
      conv_lhs => rw [tabsToCover, starts_row (str_clean i) (str_short (ha i (by simp)))]
      rw [ih (fun w hw => h w (by simp [hw])) (by simpa using hl) (fun j hj => ha j (by simp [hj]))]
      rfl

theorem isTable {vars : List Text} (hne : vars ≠ []) (h : ∀ v ∈ vars, Clean v) {rows : List (List Nat × Text)}
    (hl : ∀ row ∈ rows, row.1.length = vars.length) (hv : ∀ row ∈ rows, Clean row.2)
    (ha : ∀ row ∈ rows, ∀ i ∈ row.1, i < 10000000) :
    IsTable (table vars rows) (vars ++ [['p', 'r', 'o', 'b']]) (rows.map fun row => row.1.map str ++ [row.2]) := by
  refine ⟨headText vars, rows.map fun row => rowText vars row.1 row.2, ?_, cells_head h, ?_, ?_⟩
  · rw [table_eq hne hl, pieces_append (headText_line h)]
    congr 1
    have := pieces_lines (ls := rows.map fun row => rowText vars row.1 row.2) (by
      intro l hl'
      obtain ⟨row, hr, rfl⟩ := List.mem_map.1 hl'
      exact rowText_line (hv row hr))
    rw [List.map_map] at this
    exact this
  · rw [List.map_map]
    exact List.map_congr_left fun row hr => cells_row (hl row hr) (hv row hr)
  · intro l hl'
    obtain ⟨row, hr, rfl⟩ := List.mem_map.1 hl'
    have := starts_eq h (hl row hr) (hv row hr) (ha row hr) 0
    simpa using this

end Verif.Tab
