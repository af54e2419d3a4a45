import Verif.ConvModel
import Verif.PyLemmas

/-!
# Conversion of parameters and names (C103, C104)
-/

namespace Verif.Conv
open Matrix

/-! ### Specification: indexing -/

/-- The element of an array at an index (a list with one number per axis), row-major. -/
def rowMajor : List ℕ → List ℝ → List ℕ → Option ℝ
  | [], d, [] => d[0]?
  | k :: s, d, i :: is => if i < k then rowMajor s ((d.drop (i * s.prod)).take s.prod) is else none
  | _, _, _ => none

mutual
/-- `obj[i][j]...` as the caller reads it. -/
def entry : Obj → List ℕ → Option ℝ
  | .num x, [] => some x
  | .npnum x, [] => some x
  | .arr _ s d _, is => rowMajor s d is
  | .list l, i :: is => entryAt l i is
  | _, _ => none
/-- `l[i][j]...` -/
def entryAt : List Obj → ℕ → List ℕ → Option ℝ
  | [], _, _ => none
  | o :: _, 0, is => entry o is
  | _ :: l, i + 1, is => entryAt l i is
end

/-! ### `np.array` -/

theorem flatten_slice {p : ℕ} (L : List (List ℝ)) (hL : ∀ x ∈ L, x.length = p) (i : ℕ) (x : List ℝ)
    (hx : L[i]? = some x) : (L.flatten.drop (i * p)).take p = x := by
  induction L generalizing i with
  | nil => simp at hx
  | cons a L ih =>
    have ha : a.length = p := hL a (by simp)
    cases i with
    | zero =>
      simp only [List.getElem?_cons_zero, Option.some.injEq] at hx
      subst hx
      simp [← ha]
    | succ i =>
      rw [List.getElem?_cons_succ] at hx
      rw [List.flatten_cons, show (i + 1) * p = a.length + i * p by rw [ha]; ring, List.drop_append, List.drop_eq_nil_of_le (by omega)]
      simpa using ih (fun x hx => hL x (by simp [hx])) i hx

theorem flatten_length {p : ℕ} (L : List (List ℝ)) (hL : ∀ x ∈ L, x.length = p) : L.flatten.length = L.length * p := by
  induction L with
  | nil => simp
  | cons a L ih =>
    rw [List.flatten_cons, List.length_append, ih fun x hx => hL x (by simp [hx]), hL a (by simp), List.length_cons]
    ring

mutual
theorem npArray_spec : ∀ (o : Obj) (s : List ℕ) (d : List ℝ), npArray o = some (s, d) →
    d.length = s.prod ∧ ∀ is, is.length = s.length → entry o is = rowMajor s d is
  | .num x, s, d, h => by
    simp only [npArray, Option.some.injEq, Prod.mk.injEq] at h
    obtain ⟨rfl, rfl⟩ := h
    refine ⟨by simp, fun is his => ?_⟩
    obtain rfl : is = [] := by simpa using his
    simp [entry, rowMajor]
  | .npnum x, s, d, h => by
    simp only [npArray, Option.some.injEq, Prod.mk.injEq] at h
    obtain ⟨rfl, rfl⟩ := h
    refine ⟨by simp, fun is his => ?_⟩
    obtain rfl : is = [] := by simpa using his
    simp [entry, rowMajor]
  | .arr _ s' d' h', s, d, h => by
    simp only [npArray, Option.some.injEq, Prod.mk.injEq] at h
    obtain ⟨rfl, rfl⟩ := h
    exact ⟨h', fun is _ => by simp [entry]⟩
  | .list l, s, d, h => by
    rw [npArray] at h
    cases hl : npArrays l with
    | none => simp [hl] at h
    | some as =>
      have ih := npArrays_spec l as hl
      rw [hl] at h
      cases as with
      | nil =>
        simp only [Option.some.injEq, Prod.mk.injEq] at h
        obtain ⟨rfl, rfl⟩ := h
        refine ⟨by simp, fun is his => ?_⟩
        obtain ⟨i, rfl⟩ : ∃ i, is = [i] := by
          match is, his with
          | [i], _ => exact ⟨i, rfl⟩
        rw [entry, rowMajor, if_neg (by omega)]
        exact ih.2.1 i (by simp) _
      | cons a as =>
        simp only at h
        split at h
        · rename_i hall
          simp only [Option.some.injEq, Prod.mk.injEq] at h
          obtain ⟨rfl, rfl⟩ := h
          have hall' : ∀ b ∈ a :: as, b.1 = a.1 := by
            intro b hb
            rcases List.mem_cons.1 hb with rfl | hb
            · rfl
            · simpa using List.all_eq_true.1 hall b hb
          have hlen : ∀ x ∈ (a :: as).map Prod.snd, x.length = a.1.prod := by
            intro x hx
            obtain ⟨b, hb, rfl⟩ := List.mem_map.1 hx
            obtain ⟨k, hk⟩ := List.getElem?_of_mem hb
            rw [(ih.2.2 k b hk).1, hall' b hb]
          have hd : a.2 ++ (as.map Prod.snd).flatten = ((a :: as).map Prod.snd).flatten := by simp
          refine ⟨by rw [hd, flatten_length _ hlen]; simp, fun is his => ?_⟩
          cases is with
          | nil => simp at his
          | cons i is =>
            simp only [List.length_cons, Nat.add_right_cancel_iff] at his
            rw [entry, rowMajor]
            by_cases hi : i < as.length + 1
            · rw [if_pos hi]
              have hb : (a :: as)[i]? = some ((a :: as)[i]'(by simpa using hi)) := List.getElem?_eq_getElem _
              obtain ⟨b, hbe⟩ : ∃ b, b = (a :: as)[i]'(by simpa using hi) := ⟨_, rfl⟩
              rw [← hbe] at hb
              have hs := hall' b (List.mem_of_getElem? hb)
              rw [(ih.2.2 i b hb).2 is (by rw [hs]; exact his), hs, hd,
                flatten_slice _ hlen i b.2 (by rw [List.getElem?_map, hb]; rfl)]
            · rw [if_neg hi]
              exact ih.2.1 i (by simp; omega) _
        · exact absurd h (by simp)
theorem npArrays_spec : ∀ (l : List Obj) (as : List Arr), npArrays l = some as → as.length = l.length ∧
    (∀ i, as.length ≤ i → ∀ is, entryAt l i is = none) ∧
    ∀ (k : ℕ) (a : Arr), as[k]? = some a → a.2.length = a.1.prod ∧
      ∀ is, is.length = a.1.length → entryAt l k is = rowMajor a.1 a.2 is
  | [], as, h => by
    simp only [npArrays, Option.some.injEq] at h
    subst h
    exact ⟨rfl, fun i _ is => by simp [entryAt], fun k a hk => by simp at hk⟩
  | o :: l, as, h => by
    rw [npArrays] at h
    cases ho : npArray o with
    | none => simp [ho] at h
    | some a =>
      cases hl : npArrays l with
      | none => simp [ho, hl] at h
      | some bs =>
        simp only [ho, hl, Option.some.injEq] at h
        subst h
        obtain ⟨h1, h2, h3⟩ := npArrays_spec l bs hl
        refine ⟨by simp [h1], fun i hi is => ?_, fun k b hk => ?_⟩
        · cases i with
          | zero => simp at hi
          | succ i => rw [entryAt]; exact h2 i (by simpa using hi) is
        · cases k with
          | zero =>
            simp only [List.getElem?_cons_zero, Option.some.injEq] at hk
            subst hk
            simp only [entryAt]
            exact npArray_spec o a.1 a.2 ho
          | succ k =>
            simp only [entryAt]
            exact h3 k b (by simpa using hk)
end

theorem rowMajor_square {n : ℕ} {d : List ℝ} (hd : d.length = n * n) (i j : ℕ) :
    rowMajor [n, n] d [i, j] = if i < n ∧ j < n then some (d.getD (i * n + j) 0) else none := by
  rw [rowMajor, rowMajor, rowMajor]
  by_cases hi : i < n
  · by_cases hj : j < n
    · have hij : i * n + j < d.length := by
        rw [hd]
        calc i * n + j < i * n + n := by omega
          _ = (i + 1) * n := by ring
          _ ≤ n * n := Nat.mul_le_mul_right _ hi
      simp [hi, hj, List.getElem?_drop, List.getElem?_eq_getElem hij]
    · simp [hi, hj]
  · simp [hi]

/-! ### C103: matrices -/

/-- The list of the rows of a matrix, as the caller writes it. -/
def rowsObj {n : ℕ} (m : Matrix (Fin n) (Fin n) ℝ) : Obj :=
  .list ((List.finRange n).map fun i => .list ((List.finRange n).map fun j => .num (m i j)))

/-- The ways of the documentation to write an `n × n` matrix: the list of rows, an array of shape `(n, n)`, and for
`n = 1` also the number or the list with the number. -/
inductive IsMatrix {n : ℕ} (m : Matrix (Fin n) (Fin n) ℝ) : Obj → Prop
  | rows : 0 < n → IsMatrix m (rowsObj m)
  | arr (f : Bool) (d : List ℝ) (h) : (∀ i j : Fin n, rowMajor [n, n] d [i, j] = some (m i j)) →
      IsMatrix m (.arr f [n, n] d h)
  | number (h : n = 1) (x : ℝ) : (∀ i j, m i j = x) → IsMatrix m (.num x)
  | single (h : n = 1) (x : ℝ) : (∀ i j, m i j = x) → IsMatrix m (.list [.num x])

theorem npArrays_map {α : Type} (l : List α) (f : α → Obj) (g : α → Arr) (h : ∀ a ∈ l, npArray (f a) = some (g a)) :
    npArrays (l.map f) = some (l.map g) := by
  induction l with
  | nil => simp [npArrays]
  | cons a l ih =>
    rw [List.map_cons, npArrays, h a (by simp), ih fun b hb => h b (by simp [hb])]
    rfl

theorem npArray_list {α : Type} (l : List α) (hl : l ≠ []) (f : α → Obj) (s : List ℕ) (g : α → List ℝ)
    (h : ∀ a ∈ l, npArray (f a) = some (s, g a)) :
    npArray (.list (l.map f)) = some (l.length :: s, (l.map g).flatten) := by
  rw [npArray, npArrays_map l f (fun a => (s, g a)) h]
  cases l with
  | nil => exact absurd rfl hl
  | cons a l =>
    simp only [List.map_cons]
    rw [if_pos (by simp)]
    simp [List.map_map, Function.comp_def]

/-- The elements of a matrix in row-major order. -/
def flat {n : ℕ} (m : Matrix (Fin n) (Fin n) ℝ) : List ℝ :=
  ((List.finRange n).map fun i => (List.finRange n).map fun j => m i j).flatten

theorem npArray_rows {n : ℕ} (hn : 0 < n) (m : Matrix (Fin n) (Fin n) ℝ) :
    npArray (rowsObj m) = some ([n, n], flat m) := by
  have hne : List.finRange n ≠ [] := by
    intro h
    have := congrArg List.length h
    simp at this
    omega
  have inner : ∀ i : Fin n, npArray (.list ((List.finRange n).map fun j => .num (m i j)))
      = some ([n], (List.finRange n).map fun j => m i j) := by
    intro i
    rw [npArray_list (List.finRange n) hne (fun j => .num (m i j)) [] (fun j => [m i j]) fun j _ => by simp [npArray]]
    have hs : ∀ l : List (Fin n), (l.map fun j => [m i j]).flatten = l.map fun j => m i j := by
      intro l
      induction l with
      | nil => simp
      | cons a l ih => simpa using ih
    rw [hs, List.length_finRange]
  rw [rowsObj, npArray_list (List.finRange n) hne (fun i => .list ((List.finRange n).map fun j => .num (m i j))) [n] (fun i => (List.finRange n).map fun j => m i j) fun i _ => inner i]
  simp [flat]

theorem flat_length {n : ℕ} (m : Matrix (Fin n) (Fin n) ℝ) : (flat m).length = n * n := by
  rw [flat, flatten_length (p := n)]
  · simp
  · intro x hx
    obtain ⟨i, _, rfl⟩ := List.mem_map.1 hx
    simp

theorem entry_rows {n : ℕ} (m : Matrix (Fin n) (Fin n) ℝ) (i j : Fin n) :
    rowMajor [n, n] (flat m) [i, j] = some (m i j) := by
  rw [rowMajor, if_pos i.2]
  rw [show ([n] : List ℕ).prod = n by simp]
  have : ((flat m).drop (i * n)).take n = (List.finRange n).map fun j => m i j := by
    apply flatten_slice
    · intro x hx
      obtain ⟨i, _, rfl⟩ := List.mem_map.1 hx
      simp
    · simp
  rw [this, rowMajor, if_pos j.2]
  simp [rowMajor]

theorem matOf_eq {n : ℕ} {m : Matrix (Fin n) (Fin n) ℝ} {d : List ℝ} (hd : d.length = n * n)
    (h : ∀ i j : Fin n, rowMajor [n, n] d [i, j] = some (m i j)) : matOf n d = ⟨n, m⟩ := by
  unfold matOf
  congr 1
  funext i j
  have := h i j
  rw [rowMajor_square hd, if_pos ⟨i.2, j.2⟩] at this
  exact Option.some.inj this

theorem checkSquare_ok {n : ℕ} (d : List ℝ) : checkSquare ([n, n], d) = .ok (matOf n d) := by
  simp [checkSquare]

theorem listToSquare_of_array {l : List Obj} {n : ℕ} (hn : l.length = n) (hrow : ∀ o ∈ l, isRow n o = true)
    (hh : ∀ o, l = [o] → isNum o = false ∧ headIsNum o = true) (h0 : 0 < n) {d : List ℝ}
    (ha : npArray (.list l) = some ([n, n], d)) : listToSquare l = .ok (matOf n d) := by
  match l, hn with
  | [], hn => simp at hn; omega
  | [o], hn =>
    obtain rfl : 1 = n := by simpa using hn
    obtain ⟨h1, h2⟩ := hh o rfl
    have hr := hrow o (by simp)
    have hp : pyLen o = .ok 1 := by
      cases o with
      | list l => simpa [isRow, pyLen] using hr
      | num x => simp [isRow] at hr
      | npnum x => simp [isRow] at hr
      | arr => simp [isRow] at hr
    rw [listToSquare, if_neg (by simp [h1]), hp, py_bind_ok, if_pos rfl, if_pos h2]
    simp only [npArrayPy, ha]
    rw [py_bind_ok]
    exact checkSquare_ok d
  | o :: o' :: l, hn =>
    rw [listToSquare]
    · rw [if_pos (by rw [hn, List.all_eq_true]; exact hrow)]
      simp only [npArrayPy, ha]
      rw [py_bind_ok]
      exact checkSquare_ok d
    · simp
    · simp

/-- **C103 (matrices are read as written).** -/
theorem C103_matrix {n : ℕ} (m : Matrix (Fin n) (Fin n) ℝ) (o : Obj) (h : IsMatrix m o) :
    makeSquare o = .ok ⟨n, m⟩ := by
  cases h with
  | rows hn =>
    rw [rowsObj, makeSquare, listToSquare_of_array (n := n) (by simp) _ _ hn (npArray_rows hn m),
      matOf_eq (flat_length m) (entry_rows m)]
    · intro o ho
      obtain ⟨i, _, rfl⟩ := List.mem_map.1 ho
      simp [isRow]
    · intro o ho
      obtain rfl : n = 1 := by simpa using congrArg List.length ho
      simp only [List.finRange_succ, List.finRange_zero, List.map_cons, List.map_nil, List.cons.injEq, and_true] at ho
      subst ho
      simp [isNum, headIsNum]
  | arr f d h hd =>
    simp only [makeSquare]
    rw [pyAssert]
    simp only [decide_true, if_true]
    rw [py_bind_ok, matOf_eq (by simpa using h) hd]
  | number hn x hx =>
    subst hn
    rw [makeSquare, matOf_eq (by simp)]
    intro i j
    obtain rfl : i = 0 := Subsingleton.elim _ _
    obtain rfl : j = 0 := Subsingleton.elim _ _
    simp [rowMajor, hx]
  | single hn x hx =>
    subst hn
    rw [makeSquare, listToSquare, if_pos (by simp [isNum])]
    simp only [npArrayPy, npArray, npArrays, List.all_nil, if_true]
    rw [py_bind_ok, List.length_nil, zero_add, checkSquare_ok, matOf_eq (by simp)]
    intro i j
    obtain rfl : i = 0 := Subsingleton.elim _ _
    obtain rfl : j = 0 := Subsingleton.elim _ _
    simp [rowMajor, hx]

/-- **C103 (nothing else is read as a matrix).** If a matrix comes out, then the object was a number, a list of one number,
or had `n` rows and `n` columns with exactly these elements. -/
theorem C103_matrix_sound (o : Obj) (r : Mat) (h : makeSquare o = .ok r) :
    (∀ i j : ℕ, entry o [i, j] = if h : i < r.1 ∧ j < r.1 then some (r.2 ⟨i, h.1⟩ ⟨j, h.2⟩) else none) ∨
    ∃ x, r = ⟨1, fun _ _ => x⟩ ∧ (o = .num x ∨ o = .list [.num x]) := by
  have fin : ∀ (n : ℕ) (d : List ℝ), npArray o = some ([n, n], d) → r = matOf n d →
      (∀ i j : ℕ, entry o [i, j] = if h : i < r.1 ∧ j < r.1 then some (r.2 ⟨i, h.1⟩ ⟨j, h.2⟩) else none) := by
    intro n d ha hr i j
    subst hr
    obtain ⟨h1, h2⟩ := npArray_spec o _ _ ha
    rw [h2 [i, j] rfl, rowMajor_square (by simpa using h1)]
    rfl
  have fin1 : ∀ x : ℝ, matOf 1 [x] = ⟨1, fun _ _ => x⟩ := by
    intro x
    unfold matOf
    congr 1
    funext i j
    obtain rfl : i = 0 := Subsingleton.elim _ _
    obtain rfl : j = 0 := Subsingleton.elim _ _
    simp
  have fin2 : ∀ a : Arr, checkSquare a = .ok r → ∃ n, a.1 = [n, n] ∧ r = matOf n a.2 := by
    intro a ha
    unfold checkSquare at ha
    split at ha
    · rename_i n m rest hs
      split at ha
      · exact absurd ha (by simp)
      · rename_i hc
        push Not at hc
        obtain ⟨rfl, rfl⟩ := hc
        exact ⟨n, hs, (Except.ok.inj ha).symm⟩
    · exact absurd ha (by simp)
  cases o with
  | num x =>
    simp only [makeSquare, Except.ok.injEq] at h
    exact .inr ⟨x, by rw [← h, fin1], .inl rfl⟩
  | npnum x => simp [makeSquare] at h
  | arr f s d hd =>
    unfold makeSquare at h
    simp only at h
    split at h
    · rename_i n m hd'
      obtain ⟨u, hu, h3⟩ := py_bind_eq_ok.1 h
      unfold pyAssert at hu
      split at hu
      · rename_i hnm
        have hnm : n = m := by simpa using hnm
        subst hnm
        exact .inl (fin n d (by simp [npArray]) (Except.ok.inj h3).symm)
      · exact absurd hu (by simp)
    · exact absurd h (by simp)
  | list l =>
    rw [makeSquare] at h
    have viaArray : ∀ a : Arr, npArrayPy (.list l) = .ok a → checkSquare a = .ok r →
        (∀ i j : ℕ, entry (.list l) [i, j] = if h : i < r.1 ∧ j < r.1 then some (r.2 ⟨i, h.1⟩ ⟨j, h.2⟩) else none) := by
      intro a ha hc
      obtain ⟨n, hs, hr⟩ := fin2 a hc
      obtain ⟨s, d⟩ := a
      subst hs
      refine fin n d ?_ hr
      unfold npArrayPy at ha
      split at ha
      · rename_i a' ha'
        rw [ha', Except.ok.inj ha]
      · exact absurd ha (by simp)
    unfold listToSquare at h
    split at h
    · exact absurd h (by simp)
    · rename_i o
      split at h
      · rename_i hn
        cases o with
        | num x =>
          right
          simp only [npArrayPy, npArray, npArrays, List.all_nil, if_true] at h
          rw [py_bind_ok] at h
          obtain ⟨n, hs, hr⟩ := fin2 _ h
          simp only [List.length_nil, zero_add, List.cons.injEq, and_true] at hs
          obtain rfl : 1 = n := hs.1
          exact ⟨x, by rw [hr, ← fin1]; simp, .inr rfl⟩
        | npnum x => simp [isNum] at hn
        | list l => simp [isNum] at hn
        | arr => simp [isNum] at hn
      · obtain ⟨k, _, h⟩ := py_bind_eq_ok.1 h
        split at h
        · split at h
          · obtain ⟨a, ha, h⟩ := py_bind_eq_ok.1 h
            exact .inl (viaArray a ha h)
          · exact absurd h (by simp)
        · exact absurd h (by simp)
    · split at h
      · obtain ⟨a, ha, h⟩ := py_bind_eq_ok.1 h
        exact .inl (viaArray a ha h)
      · exact absurd h (by simp)

/-! ### C103: vectors and scalars -/

/-- The ways of the documentation to write a vector: the list of its elements, a number, and an array with one axis or
with an axis of length one. -/
inductive IsVector {n : ℕ} (v : Fin n → ℝ) : Obj → Prop
  | list : IsVector v (.list ((List.finRange n).map fun i => .num (v i)))
  | number (h : n = 1) (x : ℝ) : (∀ i, v i = x) → IsVector v (.num x)
  | arr (f : Bool) (s : List ℕ) (hs : s = [n] ∨ s = [n, 1] ∨ s = [1, n]) (h) :
      IsVector v (.arr f s ((List.finRange n).map v) h)

theorem vecOf_finRange {n : ℕ} (v : Fin n → ℝ) : vecOf ((List.finRange n).map v) = ⟨n, v⟩ := by
  unfold vecOf
  apply Sigma.ext
  · simp
  · refine (Fin.heq_fun_iff (by simp)).2 fun i => ?_
    simp

/-- **C103 (vectors are read as written).** -/
theorem C103_vector {n : ℕ} (v : Fin n → ℝ) (o : Obj) (h : IsVector v o) : makeColumn o = .ok ⟨n, v⟩ := by
  cases h with
  | list =>
    rw [makeColumn]
    · by_cases hn : n = 0
      · subst hn
        simp only [List.finRange_zero, List.map_nil, npArrayPy, npArray, npArrays]
        rw [py_bind_ok]
        have := vecOf_finRange v
        simpa using this
      · have hne : List.finRange n ≠ [] := by
          intro h
          have := congrArg List.length h
          simp at this
          omega
        rw [npArrayPy, npArray_list (List.finRange n) hne (fun i => .num (v i)) [] (fun i => [v i]) fun i _ => by simp [npArray]]
        simp only
        rw [py_bind_ok, ← vecOf_finRange v]
        simp only
        congr 2
        generalize List.finRange n = l
        induction l with
        | nil => simp
        | cons a l ih => simpa using ih
    · simp
  | number hn x hx =>
    subst hn
    rw [makeColumn]
    · simp only [npArrayPy, npArray]
      rw [py_bind_ok, ← vecOf_finRange v]
      simp [hx, List.finRange_succ]
    · simp
  | arr f s hs h =>
    rw [makeColumn]
    rcases hs with rfl | rfl | rfl <;> simp [pyAssert, vecOf_finRange, bind, Except.bind]

/-- The ways of the documentation to write a number. -/
inductive IsScalar (x : ℝ) : Obj → Prop
  | number : IsScalar x (.num x)
  | list : IsScalar x (.list [.num x])
  | npList : IsScalar x (.list [.npnum x])
  | arr (f : Bool) (s : List ℕ) (h) (h' : s ≠ []) : IsScalar x (.arr f s [x] h)

/-- **C103 (numbers are read as written).** -/
theorem C103_scalar (x : ℝ) (o : Obj) (h : IsScalar x o) : makeScalar o = .ok x := by
  cases h with
  | number => rfl
  | list => rfl
  | npList => rfl
  | arr f s h h' =>
    cases s with
    | nil => exact absurd rfl h'
    | cons k s =>
      have hk : k = 1 := by
        have : k * s.prod = 1 := by simpa using h.symm
        exact Nat.eq_one_of_mul_eq_one_right this
      simp [makeScalar, hk]

/-! ### C103: the constructor -/

/-- **C103 (part that holds: covariance form).** However the parameters are written, the constructor makes the Gaussian
with these parameters. -/
theorem C103_gaussian_cov_partial {n : ℕ} (p : CovF n) (vars : List Var) (hv : vars.Nodup) (hn : vars.length = n)
    {oc om ow : Obj} (hc : IsMatrix p.cov oc) (hm : IsVector p.mean om) (hw : IsScalar p.lw ow) :
    mkGaussian { cov := some oc, mean := some om, logWeight := some ow, varNames := .many vars }
      = .ok ⟨n, ⟨vars, none, some p, false⟩⟩ := by
  subst hn
  simp only [mkGaussian, factorInit, hv, if_true]
  rw [py_bind_ok]
  simp only
  rw [C103_matrix _ _ hc, py_bind_ok, C103_vector _ _ hm, py_bind_ok]
  simp only [dite_true]
  rw [C103_scalar _ _ hw, py_bind_ok]
  rfl

/-- **C103 (part that holds: canonical form).** -/
theorem C103_gaussian_can_partial {n : ℕ} (p : Can n) (vars : List Var) (hv : vars.Nodup) (hn : vars.length = n)
    {oc om ow : Obj} (hc : IsMatrix p.prec oc) (hm : IsVector p.h om) (hw : IsScalar p.g ow) :
    mkGaussian { prec := some oc, hVec := some om, gVal := some ow, varNames := .many vars }
      = .ok ⟨n, ⟨vars, some p, none, Gauss.vacParams p.prec⟩⟩ := by
  subst hn
  simp only [mkGaussian, factorInit, hv, if_true]
  rw [py_bind_ok]
  simp only
  rw [C103_matrix _ _ hc, py_bind_ok, C103_vector _ _ hm, py_bind_ok]
  simp only [dite_true]
  rw [C103_scalar _ _ hw, py_bind_ok]
  rfl

/-- **C103 (no wrong sizes).** Whatever the arguments: the names of the Gaussian that comes out are those given, each once,
and its parameters are the converted ones, all of the dimension that belongs to the names. -/
theorem C103_gaussian_sound (a : Args) (r : Σ n : ℕ, Gauss n) (h : mkGaussian a = .ok r) :
    ∃ vars, factorInit a.varNames = .ok (vars, r.1) ∧ r.2.vars = vars ∧
      ((∃ oc om ow p, a.cov = some oc ∧ a.mean = some om ∧ a.logWeight = some ow ∧ a.prec = none ∧ r.2.cov = some p ∧
          r.2.can = none ∧ makeSquare oc = .ok ⟨r.1, p.cov⟩ ∧ makeColumn om = .ok ⟨r.1, p.mean⟩ ∧
          makeScalar ow = .ok p.lw) ∨
        ∃ oc om ow p, a.prec = some oc ∧ a.hVec = some om ∧ a.gVal = some ow ∧ r.2.can = some p ∧
          r.2.cov = none ∧ makeSquare oc = .ok ⟨r.1, p.prec⟩ ∧ makeColumn om = .ok ⟨r.1, p.h⟩ ∧
          makeScalar ow = .ok p.g) := by
  obtain ⟨cov, mean, lw, prec, hVec, gVal, vn⟩ := a
  have key : (do
      let (vars, dim) ← factorInit vn
      match prec, hVec, gVal with
      | none, none, none =>
        match cov, mean, lw with
        | some cov, some mean, some lw =>
          let m ← makeSquare cov
          let v ← makeColumn mean
          if hm : m.1 = dim then
            if hv : v.1 = dim then
              let w ← makeScalar lw
              .ok ⟨dim, ⟨vars, none, some ⟨fun i j => m.2 (i.cast hm.symm) (j.cast hm.symm), fun i => v.2 (i.cast hv.symm), w⟩, false⟩⟩
            else .error .assertionError
          else .error .assertionError
        | _, _, _ => .error .valueError
      | some prec, some h, some g =>
        let m ← makeSquare prec
        let v ← makeColumn h
        if hm : m.1 = dim then
          if hv : v.1 = dim then
            let w ← makeScalar g
            let k : Matrix (Fin dim) (Fin dim) ℝ := fun i j => m.2 (i.cast hm.symm) (j.cast hm.symm)
            .ok ⟨dim, ⟨vars, some ⟨k, fun i => v.2 (i.cast hv.symm), w⟩, none, Gauss.vacParams k⟩⟩
          else .error .assertionError
        else .error .assertionError
      | _, _, _ => .error .valueError) = (.ok r : Py (Σ n : ℕ, Gauss n)) := by
    cases vn with
    | none => simp [mkGaussian] at h
    | one s => exact h
    | many l => exact h
  obtain ⟨⟨vars, dim⟩, hf, key⟩ := py_bind_eq_ok.1 key
  dsimp only at key
  split at key
  · split at key
    · rename_i oc om ow _
      obtain ⟨m, hm, key⟩ := py_bind_eq_ok.1 key
      obtain ⟨v, hv, key⟩ := py_bind_eq_ok.1 key
      split at key
      · rename_i hmd
        split at key
        · rename_i hvd
          obtain ⟨w, hw, key⟩ := py_bind_eq_ok.1 key
          obtain ⟨mn, mm⟩ := m
          obtain ⟨vn', vv⟩ := v
          dsimp only at hmd hvd
          subst hmd
          subst hvd
          have := Except.ok.inj key
          subst this
          exact ⟨vars, hf, rfl, .inl ⟨oc, om, ow, _, rfl, rfl, rfl, rfl, rfl, rfl, hm, hv, hw⟩⟩
        · exact absurd key (by simp)
      · exact absurd key (by simp)
    · exact absurd key (by simp)
  · rename_i oc om ow _
    obtain ⟨m, hm, key⟩ := py_bind_eq_ok.1 key
    obtain ⟨v, hv, key⟩ := py_bind_eq_ok.1 key
    split at key
    · rename_i hmd
      split at key
      · rename_i hvd
        obtain ⟨w, hw, key⟩ := py_bind_eq_ok.1 key
        obtain ⟨mn, mm⟩ := m
        obtain ⟨vn', vv⟩ := v
        dsimp only at hmd hvd
        subst hmd
        subst hvd
        have := Except.ok.inj key
        subst this
        exact ⟨vars, hf, rfl, .inr ⟨oc, om, ow, _, rfl, rfl, rfl, rfl, rfl, hm, hv, hw⟩⟩
      · exact absurd key (by simp)
    · exact absurd key (by simp)
  · exact absurd key (by simp)

/-! ### C103: violations -/

/-- **C103 violated (vectors).** The list of lists `[[1, 2], [3, 4]]` is taken as a vector with four elements, although
the array with the same elements is rejected. -/
theorem C103_vector_violated :
    makeColumn (.list [.list [.num 1, .num 2], .list [.num 3, .num 4]]) = .ok ⟨4, ![1, 2, 3, 4]⟩ ∧
      makeColumn (.arr true [2, 2] [1, 2, 3, 4] rfl) = .error .assertionError := by
  refine ⟨?_, rfl⟩
  rw [makeColumn]
  · have h := npArray_rows (by norm_num) !![(1 : ℝ), 2; 3, 4]
    have h' : rowsObj !![(1 : ℝ), 2; 3, 4] = .list [.list [.num 1, .num 2], .list [.num 3, .num 4]] := by
      simp [rowsObj, List.finRange_succ]
    rw [h'] at h
    have h4 : flat !![(1 : ℝ), 2; 3, 4] = (List.finRange 4).map ![(1 : ℝ), 2, 3, 4] := by
      simp [flat, List.finRange_succ]
    rw [npArrayPy, h, h4]
    simp only
    rw [py_bind_ok]
    simp only
    rw [vecOf_finRange]
  · simp

/-- **C103 violated (numbers).** An array of shape `(1, 2)` is taken as a number, its smallest element. -/
theorem C103_scalar_violated : makeScalar (.arr true [1, 2] [3, 1] rfl) = .ok 1 := by
  simp [makeScalar]

/-- **C103 violated (error).** The error for `[[[1]]]`, and for the list of rows `[[1]]` with a number of type `np.int64`
or a row that is an array of integers, is not the announced `ValueError`. -/
theorem C103_error_violated : makeSquare (.list [.list [.list [.num 1]]]) = .error .unboundLocalError ∧
    makeSquare (.list [.list [.npnum 1]]) = .error .unboundLocalError ∧
    makeSquare (.list [.arr false [1] [1] rfl]) = .error .unboundLocalError := ⟨rfl, rfl, rfl⟩

/-! ### C104: a single name -/

/-- **C104 (part that holds).** One name of one character can be given as a string; for choosing marginals every name
can. -/
theorem C104_single_name_partial :
    (∀ c : Char, factorInit (.one (String.singleton c)) = factorInit (.many [String.singleton c])) ∧
    ∀ (so : SetOrder Var) (vars : List Var) (s : String) (keep : Bool),
      getMarginalVars so vars (.one s) keep = getMarginalVars so vars (.many [s]) keep := by
  refine ⟨fun c => ?_, fun so vars s keep => rfl⟩
  simp [factorInit]

/-- **C104 violated.** With a name of two or more characters (or none) given as a string, no Gaussian that comes out has
as many dimensions as names, whatever the parameters. -/
theorem C104_single_name_violated (s : String) (hs : s.toList.length ≠ 1) (a : Args) (ha : a.varNames = .one s)
    (r : Σ n : ℕ, Gauss n) (h : mkGaussian a = .ok r) : r.2.vars = [s] ∧ r.1 ≠ r.2.vars.length := by
  obtain ⟨vars, hf, hv, _⟩ := C103_gaussian_sound a r h
  rw [ha, factorInit] at hf
  split at hf
  · have hf := Except.ok.inj hf
    simp only [Prod.mk.injEq] at hf
    rw [hv, ← hf.1, ← hf.2]
    exact ⟨rfl, by simpa using hs⟩
  · exact absurd hf (by simp)

/-- **C104 violated (witnesses).** `Gaussian(cov=1, mean=0, log_weight=0, var_names="x1")` raises, with the list `["x1"]`
it does not; the name `"xx"` is reported as a duplicate; two dimensional parameters with the one name `"ab"` are
accepted. -/
theorem C104_single_name_witness :
    mkGaussian { cov := some (.num 1), mean := some (.num 0), logWeight := some (.num 0), varNames := .one "x1" }
      = .error .assertionError ∧
    (∃ r, mkGaussian { cov := some (.num 1), mean := some (.num 0), logWeight := some (.num 0), varNames := .many ["x1"] }
      = .ok r) ∧
    factorInit (.one "xx") = .error .valueError ∧
    ∃ g : Gauss 2, g.vars = ["ab"] ∧ mkGaussian
      { cov := some (.arr true [2, 2] [1, 0, 0, 1] rfl)
        mean := some (.list [.num 0, .num 0])
        logWeight := some (.num 0)
        varNames := .one "ab" } = .ok ⟨2, g⟩ := by
  have hx : "x1".toList = ['x', '1'] := rfl
  have hy : "xx".toList = ['x', 'x'] := rfl
  have hz : "ab".toList = ['a', 'b'] := rfl
  refine ⟨?_, ⟨_, C103_gaussian_cov_partial (n := 1) ⟨1, 0, 0⟩ ["x1"] (by simp) rfl (.number rfl 1 fun i j => ?_)
    (.number rfl 0 fun i => rfl) .number⟩, by simp [factorInit, hy], ?_⟩
  · simp only [mkGaussian, factorInit, hx]
    rw [if_pos (by simp), py_bind_ok]
    simp only [makeSquare]
    rw [py_bind_ok, C103_vector (n := 1) (fun _ => 0) _ (.number rfl 0 fun _ => rfl), py_bind_ok]
    rw [dif_neg (by simp [matOf])]
  · rw [Subsingleton.elim i j]
    exact Matrix.one_apply_eq j
  · refine ⟨⟨["ab"], none, some ⟨fun i j => (matOf 2 [1, 0, 0, 1]).2 i j, fun _ => 0, 0⟩, false⟩, rfl, ?_⟩
    simp only [mkGaussian, factorInit, hz]
    rw [if_pos (by simp), py_bind_ok]
    simp only
    have hm : makeSquare (.arr true [2, 2] [1, 0, 0, 1] rfl) = .ok (matOf 2 [1, 0, 0, 1]) := rfl
    have hv : makeColumn (.list [.num 0, .num 0]) = .ok ⟨2, fun _ => 0⟩ := by
      have := C103_vector (n := 2) (fun _ => 0) _ .list
      simpa [List.finRange_succ] using this
    rw [hm, py_bind_ok, hv, py_bind_ok]
    rfl

/-! ### The hypotheses can be met -/

example : mkGaussian
      { cov := some (.list [.list [.num 2, .num 1], .list [.num 1, .num 3]])
        mean := some (.arr true [2, 1] [4, 5] rfl)
        logWeight := some (.list [.num 6])
        varNames := .many ["a", "b"] }
    = .ok ⟨2, ⟨["a", "b"], none, some ⟨!![2, 1; 1, 3], ![4, 5], 6⟩, false⟩⟩ := by
  refine C103_gaussian_cov_partial (n := 2) ⟨!![2, 1; 1, 3], ![4, 5], 6⟩ ["a", "b"] (by simp) rfl ?_ ?_ .list
  · have := IsMatrix.rows (m := !![(2 : ℝ), 1; 1, 3]) (by norm_num)
    simpa [rowsObj, List.finRange_succ] using this
  · have := IsVector.arr (v := ![(4 : ℝ), 5]) true [2, 1] (by simp) (by simp)
    simpa [List.finRange_succ] using this

example : ∃ r, makeSquare (.list [.list [.num 2, .num 1], .list [.num 1, .num 3]]) = .ok r ∧ r.1 = 2 := by
  have := C103_matrix !![(2 : ℝ), 1; 1, 3] _ (.rows (by norm_num))
  exact ⟨_, by simpa [rowsObj, List.finRange_succ] using this, rfl⟩

end Verif.Conv
