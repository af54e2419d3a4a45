import Verif.Py

/-! Lemmas about the Python prelude (no model content). -/

namespace Verif

theorem mapM_ok {α β : Type} {f : α → Py β} {g : α → β} {l : List α}
    (h : ∀ a ∈ l, f a = .ok (g a)) : l.mapM f = .ok (l.map g) := by
  induction l with
  | nil => rfl
  | cons a l ih =>
    rw [List.mapM_cons, h a (by simp), ih fun b hb => h b (by simp [hb])]
    rfl

theorem foldlM_ok {α β : Type} {f : β → α → Py β} {g : β → α → β} {l : List α} {b : β}
    (h : ∀ b, ∀ a ∈ l, f b a = .ok (g b a)) : l.foldlM f b = .ok (l.foldl g b) := by
  induction l generalizing b with
  | nil => rfl
  | cons a l ih =>
    rw [List.foldlM_cons, h b a (by simp)]
    exact ih fun b a ha => h b a (by simp [ha])

@[simp] theorem py_bind_ok {α β : Type} (a : α) (f : α → Py β) : (Except.ok a >>= f : Py β) = f a := rfl
@[simp] theorem py_bind_error {α β : Type} (e : PyErr) (f : α → Py β) :
    (Except.error e >>= f : Py β) = .error e := rfl
@[simp] theorem py_pure {α : Type} (a : α) : (pure a : Py α) = .ok a := rfl

theorem py_bind_eq_ok {α β : Type} {m : Py α} {f : α → Py β} {b : β} :
    (m >>= f) = .ok b ↔ ∃ a, m = .ok a ∧ f a = .ok b := by
  cases m <;> simp

theorem pyIndex_ok {α : Type} [DecidableEq α] {l : List α} {v : α} (h : v ∈ l) :
    pyIndex l v = .ok (l.idxOf v) := by simp [pyIndex, h]

theorem getItem_ok {κ ν : Type} [DecidableEq κ] {d : Dict κ ν} {k : κ} {v : ν}
    (h : Dict.get? d k = some v) : Dict.getItem d k = .ok v := by simp [Dict.getItem, h]

theorem getItem_eq_ok {κ ν : Type} [DecidableEq κ] {d : Dict κ ν} {k : κ} {v : ν} :
    Dict.getItem d k = .ok v ↔ Dict.get? d k = some v := by
  unfold Dict.getItem; cases Dict.get? d k <;> simp

theorem pyGet_ok {α : Type} {l : List α} {i : Nat} {a : α} (h : l[i]? = some a) :
    pyGet l i = .ok a := by simp [pyGet, h]

theorem pyAssert_true : pyAssert true = .ok () := rfl

/-! ### Assignments and keys -/

/-- The assignment described by a key `k` for the variables `vars` (0 elsewhere). -/
def asgOf (vars : List Var) (k : List Nat) : Var → Nat := fun v => (k[vars.idxOf v]?).getD 0

theorem map_asgOf {vars : List Var} (hn : vars.Nodup) {k : List Nat} (hl : k.length = vars.length) :
    vars.map (asgOf vars k) = k := by
  apply List.ext_getElem
  · simp [hl]
  · intro i h1 h2
    simp only [List.length_map] at h1
    simp [asgOf, hn.idxOf_getElem, h2]

theorem asgOf_map {vars : List Var} (x : Var → Nat) {v : Var} (hv : v ∈ vars) :
    asgOf vars (vars.map x) v = x v := by
  have h : vars.idxOf v < vars.length := List.idxOf_lt_length_iff.2 hv
  simp [asgOf, h]

theorem map_eq_map_iff' {vars : List Var} {x y : Var → Nat} :
    vars.map x = vars.map y ↔ ∀ v ∈ vars, x v = y v := List.map_inj_left

theorem getElem?_map_idxOf {vars : List Var} {β : Type} (x : Var → β) {v : Var} (hv : v ∈ vars) :
    (vars.map x)[vars.idxOf v]? = some (x v) := by
  have h : vars.idxOf v < vars.length := List.idxOf_lt_length_iff.2 hv
  simp [h]

theorem get?_zip {vars : List Var} (cards : List Nat) (hn : vars.Nodup) (hl : cards.length = vars.length)
    {v : Var} (hv : v ∈ vars) :
    Dict.get? (vars.zip cards) v = some (asgOf vars cards v) := by
  conv_lhs => rw [← map_asgOf hn hl]
  exact Dict.get?_zip_map _ _ _ hv

theorem get?_zip_none {vars : List Var} {cards : List Nat} {v : Var} (hv : v ∉ vars) :
    Dict.get? (vars.zip cards) v = none := by
  rw [Dict.get?_eq_none_iff]
  intro h
  obtain ⟨⟨a, b⟩, hab, rfl⟩ := List.mem_map.1 h
  exact hv (List.of_mem_zip hab).1

theorem keys_zip {vars : List Var} {cards : List Nat} (hl : cards.length = vars.length) :
    Dict.keys (vars.zip cards) = vars := by
  unfold Dict.keys
  rw [List.map_fst_zip]; omega

theorem values_zip {vars : List Var} {cards : List Nat} (hl : cards.length = vars.length) :
    Dict.values (vars.zip cards) = cards := by
  unfold Dict.values
  rw [List.map_snd_zip]; omega

theorem zip_map_self {α β : Type} (l : List α) (f : α → β) :
    l.zip (l.map f) = l.map fun v => (v, f v) := by
  induction l with
  | nil => rfl
  | cons a l ih => simp [ih]

theorem set_map_idxOf {β : Type} {l : List Var} (hn : l.Nodup) (g : Var → β) (v : Var) (b : β) :
    (l.map g).set (l.idxOf v) b = l.map (fun w => if w = v then b else g w) := by
  apply List.ext_getElem
  · simp
  · intro i h1 h2
    simp only [List.length_map] at h2
    rw [List.getElem_set]
    simp only [List.getElem_map]
    by_cases hi : l.idxOf v = i
    · subst hi
      have hv : l[l.idxOf v] = v := List.getElem_idxOf h2
      simp [hv]
    · have : l[i] ≠ v := by
        rintro rfl
        exact hi (hn.idxOf_getElem i (by simpa using h2))
      simp [hi, this]

end Verif
