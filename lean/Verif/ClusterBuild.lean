import Verif.ClusterModel
import Verif.PyLemmas
import Mathlib.Data.List.FinRange
import Mathlib.Data.Nat.Digits.Defs
import Mathlib.Data.String.Basic

/-! The structure of a freshly built cluster graph. -/

namespace Verif

/-- Invariants of a loop that may raise: `P` holds of the processed prefix and the state. -/
theorem foldlM_inv {α β : Type} {f : β → α → Py β} (P : List α → β → Prop) {L : List α} {b b' : β}
    (h0 : P [] b)
    (hs : ∀ l a l' s s', L = l ++ a :: l' → P l s → f s a = .ok s' → P (l ++ [a]) s')
    (h : L.foldlM f b = .ok b') : P L b' := by
  suffices ∀ (l' l : List α) (s : β), L = l ++ l' → P l s → l'.foldlM f s = .ok b' → P L b' from
    this L [] b rfl h0 h
  intro l'
  induction l' with
  | nil =>
    intro l s hL hP hf
    rw [List.foldlM_nil] at hf
    obtain rfl : s = b' := by simpa [pure, Except.pure] using hf
    simpa [hL] using hP
  | cons a l' ih =>
    intro l s hL hP hf
    rw [List.foldlM_cons] at hf
    obtain ⟨s', h1, h2⟩ := py_bind_eq_ok.1 hf
    exact ih (l ++ [a]) s' (by simp [hL]) (hs l a l' s s' hL hP h1) h2

theorem pyAssert_eq_ok {b : Bool} {u : Unit} : pyAssert b = .ok u ↔ b = true := by
  unfold pyAssert; split <;> simp_all

theorem pyGuard_eq_ok {e : PyErr} {b : Bool} {u : Unit} : pyGuard e b = .ok u ↔ b = true := by
  unfold pyGuard; split <;> simp_all

namespace CG
variable {F V G : Type} {n : Nat}

theorem mem_pairs {i j : Fin n} : (i, j) ∈ pairs n ↔ i < j := by
  simp [pairs]

theorem nodup_pairs (n : Nat) : (pairs n).Nodup := by
  unfold pairs
  refine List.nodup_flatMap.2 ⟨fun i _ => ?_, ?_⟩
  · exact ((List.nodup_finRange n).filter _).map fun a b h => by simpa using h
  · refine (List.nodup_finRange n).imp ?_
    intro i j hij e h1 h2
    simp only [List.mem_map] at h1 h2
    obtain ⟨a, _, rfl⟩ := h1
    obtain ⟨b, _, hb⟩ := h2
    simp only [Prod.mk.injEq] at hb
    exact hij hb.1.symm

theorem makeMessage_congr {ops : Ops F V G} {c d : Cl F V} {nid : String} (h1 : c.id = d.id)
    (h2 : c.factor = d.factor) (h3 : c.received = d.received) (h4 : c.special = d.special)
    (h5 : Dict.get? c.sepsets nid = Dict.get? d.sepsets nid) :
    makeMessage ops c nid = makeMessage ops d nid := by
  unfold makeMessage Dict.getItem specialReduced cancelReceived
  rw [h1, h2, h3, h4, h5]

theorem makeMessage_ids {ops : Ops F V G} {c : Cl F V} {nid : String} {msg : Msg F}
    (h : makeMessage ops c nid = .ok msg) : msg.snd = c.id ∧ msg.rcv = nid := by
  unfold makeMessage at h
  obtain ⟨_, _, h⟩ := py_bind_eq_ok.1 h
  obtain ⟨_, _, h⟩ := py_bind_eq_ok.1 h
  obtain ⟨_, _, h⟩ := py_bind_eq_ok.1 h
  obtain ⟨_, _, h⟩ := py_bind_eq_ok.1 h
  simp only [Except.ok.injEq] at h
  subst h
  exact ⟨rfl, rfl⟩

/-! ### The build loop -/

/-- The state of `_build_graph` after the pairs in `l`. -/
structure BuildInv (ops : Ops F V G) (cl : Fin n → Cl F V) (rip : Dict (Fin n × Fin n) (List Var))
    (l : List (Fin n × Fin n)) (b : Build F V G n) : Prop where
  id : ∀ i, (b.cl i).id = (cl i).id
  factor : ∀ i, (b.cl i).factor = (cl i).factor
  received : ∀ i, (b.cl i).received = (cl i).received
  special : ∀ i, (b.cl i).special = (cl i).special
  sep : ∀ i j, Dict.get? (b.cl i).sepsets (cl j).id =
    if (i, j) ∈ l then Dict.get? rip (i, j) else if (j, i) ∈ l then Dict.get? rip (j, i) else none
  ends : b.paths.map (fun p => (p.snd, p.rcv)) =
    (l.filter fun e => (Dict.get? rip e).isSome).flatMap fun e => [e, (e.2, e.1)]
  path : ∀ p ∈ b.paths, p.prev = none ∧ makeMessage ops (b.cl p.snd) (cl p.rcv).id = .ok p.next ∧
    gainOf ops none p.next = .ok p.gain ∧ p.gains = [p.gain]
  out : ∀ i k, k ∈ b.out i ↔ ∃ h : k < b.paths.length, (b.paths[k]).snd = i
  outNodup : ∀ i, (b.out i).Nodup
  nonempty : ∀ e ∈ l, ∀ s, Dict.get? rip e = some s → s ≠ []

theorem mkPath_ok {ops : Ops F V G} {cl : Fin n → Cl F V} {i j : Fin n} {p : Path n F G}
    (h : mkPath ops cl i j = .ok p) : p.snd = i ∧ p.rcv = j ∧ p.prev = none ∧
      makeMessage ops (cl i) (cl j).id = .ok p.next ∧ gainOf ops none p.next = .ok p.gain ∧
      p.gains = [p.gain] := by
  unfold mkPath at h
  obtain ⟨m, h1, h⟩ := py_bind_eq_ok.1 h
  obtain ⟨g, h2, h⟩ := py_bind_eq_ok.1 h
  simp only [Except.ok.injEq] at h
  subst h
  exact ⟨rfl, rfl, rfl, h1, h2, rfl⟩

theorem BuildInv.edge {ops : Ops F V G} {cl : Fin n → Cl F V} {rip : Dict (Fin n × Fin n) (List Var)}
    {l : List (Fin n × Fin n)} {b b' : Build F V G n} (hid : Function.Injective fun i => (cl i).id)
    (hl : ∀ e ∈ l, e.1 < e.2)
    (inv : BuildInv ops cl rip l b) {i j : Fin n} (hij : i < j) (hnew : (i, j) ∉ l) {s : List Var}
    (hs : Dict.get? rip (i, j) = some s) (h : buildEdge ops b i j s = .ok b') :
    BuildInv ops cl rip (l ++ [(i, j)]) b' := by
  have hne : i ≠ j := hij.ne
  have hji : (j, i) ∉ l := fun hm => absurd (hl _ hm) (not_lt.2 hij.le)
  unfold buildEdge at h
  obtain ⟨_, h0, h⟩ := py_bind_eq_ok.1 h
  obtain ⟨ci, hci, h⟩ := py_bind_eq_ok.1 h
  obtain ⟨cj, hcj, h⟩ := py_bind_eq_ok.1 h
  obtain ⟨pij, hpij, h⟩ := py_bind_eq_ok.1 h
  obtain ⟨pji, hpji, h⟩ := py_bind_eq_ok.1 h
  simp only [Except.ok.injEq] at h
  have hs0 : s ≠ [] := by
    rw [pyAssert_eq_ok] at h0
    rintro rfl
    simp at h0
  have hci' : ci = { b.cl i with sepsets := Dict.set (b.cl i).sepsets (b.cl j).id s } := by
    unfold addNeighbour at hci
    obtain ⟨_, _, hci⟩ := py_bind_eq_ok.1 hci
    simpa [eq_comm] using hci
  have hcj' : cj = { b.cl j with sepsets := Dict.set (b.cl j).sepsets (b.cl i).id s } := by
    unfold addNeighbour at hcj
    obtain ⟨_, _, hcj⟩ := py_bind_eq_ok.1 hcj
    rw [Function.update_of_ne hne.symm, Function.update_self, hci'] at hcj
    simpa [eq_comm] using hcj
  set cl2 := Function.update (Function.update b.cl i ci) j cj with hcl2
  have e_i : cl2 i = ci := by rw [hcl2, Function.update_of_ne hne, Function.update_self]
  have e_j : cl2 j = cj := by rw [hcl2, Function.update_self]
  have e_k : ∀ k, k ≠ i → k ≠ j → cl2 k = b.cl k := fun k h1 h2 => by
    rw [hcl2, Function.update_of_ne h2, Function.update_of_ne h1]
  have f_id : ∀ k, (cl2 k).id = (cl k).id := by
    intro k
    by_cases h1 : k = i
    · subst h1; rw [e_i, hci', ← inv.id]
    · by_cases h2 : k = j
      · subst h2; rw [e_j, hcj', ← inv.id]
      · rw [e_k k h1 h2, inv.id]
  have f_factor : ∀ k, (cl2 k).factor = (cl k).factor := by
    intro k
    by_cases h1 : k = i
    · subst h1; rw [e_i, hci', ← inv.factor]
    · by_cases h2 : k = j
      · subst h2; rw [e_j, hcj', ← inv.factor]
      · rw [e_k k h1 h2, inv.factor]
  have f_rec : ∀ k, (cl2 k).received = (cl k).received := by
    intro k
    by_cases h1 : k = i
    · subst h1; rw [e_i, hci', ← inv.received]
    · by_cases h2 : k = j
      · subst h2; rw [e_j, hcj', ← inv.received]
      · rw [e_k k h1 h2, inv.received]
  have f_spec : ∀ k, (cl2 k).special = (cl k).special := by
    intro k
    by_cases h1 : k = i
    · subst h1; rw [e_i, hci', ← inv.special]
    · by_cases h2 : k = j
      · subst h2; rw [e_j, hcj', ← inv.special]
      · rw [e_k k h1 h2, inv.special]
  -- sepset lookups
  have f_sep : ∀ a c, Dict.get? (cl2 a).sepsets (cl c).id =
      if (a, c) = (i, j) ∨ (c, a) = (i, j) then some s else Dict.get? (b.cl a).sepsets (cl c).id := by
    intro a c
    by_cases h1 : a = i
    · subst h1
      rw [e_i, hci']
      dsimp only
      rw [Dict.get?_set, inv.id]
      by_cases hc : c = j
      · subst hc; simp
      · have : (cl j).id ≠ (cl c).id := fun h => hc (hid h).symm
        simp [this, hc, hne]
    · by_cases h2 : a = j
      · subst h2
        rw [e_j, hcj']
        dsimp only
        rw [Dict.get?_set, inv.id]
        by_cases hc : c = i
        · subst hc; simp
        · have : (cl i).id ≠ (cl c).id := fun h => hc (hid h).symm
          simp [this, hc, h1]
      · rw [e_k a h1 h2]
        simp [h1, h2]
  have msg_keep : ∀ a c, (a, c) ≠ (i, j) → (c, a) ≠ (i, j) →
      makeMessage ops (cl2 a) (cl c).id = makeMessage ops (b.cl a) (cl c).id := by
    intro a c h1 h2
    refine makeMessage_congr ((f_id a).trans (inv.id a).symm) ((f_factor a).trans (inv.factor a).symm)
      ((f_rec a).trans (inv.received a).symm) ((f_spec a).trans (inv.special a).symm) ?_
    rw [f_sep, if_neg (by simp only [not_or]; exact ⟨h1, h2⟩)]
  obtain ⟨a1, a2, a3, a4, a5, a6⟩ := mkPath_ok hpij
  obtain ⟨b1, b2, b3, b4, b5, b6⟩ := mkPath_ok hpji
  have old_ends : ∀ p ∈ b.paths, (p.snd, p.rcv) ≠ (i, j) ∧ (p.rcv, p.snd) ≠ (i, j) := by
    intro p hp
    have : (p.snd, p.rcv) ∈ b.paths.map (fun p => (p.snd, p.rcv)) := List.mem_map.2 ⟨p, hp, rfl⟩
    rw [inv.ends, List.mem_flatMap] at this
    obtain ⟨e, he, hm⟩ := this
    have hel := (List.mem_filter.1 he).1
    simp only [List.mem_cons, List.not_mem_nil, or_false] at hm
    have key : e ≠ (i, j) := fun h => hnew (h ▸ hel)
    have key' : e ≠ (j, i) := fun h => hji (h ▸ hel)
    obtain ⟨e1, e2⟩ := e
    simp only [ne_eq, Prod.mk.injEq, not_and] at key key' hm ⊢
    rcases hm with h | h
    · rw [h.1, h.2]
      exact ⟨key, fun h h' => key' h' h⟩
    · rw [h.1, h.2]
      exact ⟨fun h h' => key' h' h, key⟩
  subst h
  refine ⟨f_id, f_factor, f_rec, f_spec, ?_, ?_, ?_, ?_, ?_, ?_⟩
  · intro a c
    show Dict.get? (cl2 a).sepsets _ = _
    rw [f_sep, inv.sep]
    by_cases h1 : (a, c) = (i, j)
    · rw [if_pos (Or.inl h1), if_pos (by simp [h1]), h1, hs]
    · by_cases h2 : (c, a) = (i, j)
      · have : (a, c) ∉ l ++ [(i, j)] := by
          simp only [Prod.mk.injEq] at h2
          obtain ⟨rfl, rfl⟩ := h2
          simp only [List.mem_append, hji, List.mem_singleton, h1, or_self, not_false_eq_true]
        rw [if_pos (Or.inr h2), if_neg this, if_pos (by simp [h2]), h2, hs]
      · rw [if_neg (by simp [h1, h2])]
        simp only [List.mem_append, List.mem_singleton, h1, h2, or_false]
  · show (b.paths ++ [pij, pji]).map _ = _
    rw [List.map_append, inv.ends, List.filter_append, List.flatMap_append]
    congr 1
    simp [hs, a1, a2, b1, b2]
  · intro p hp
    show p.prev = none ∧ makeMessage ops (cl2 p.snd) _ = _ ∧ _
    simp only [List.mem_append, List.mem_cons, List.not_mem_nil, or_false] at hp
    rcases hp with hp | rfl | rfl
    · obtain ⟨h1, h2, h3⟩ := inv.path p hp
      refine ⟨h1, ?_, h3⟩
      rw [msg_keep _ _ (old_ends p hp).1 (old_ends p hp).2, h2]
    · refine ⟨a3, ?_, a5, a6⟩
      rw [a1, a2, ← f_id j]; exact a4
    · refine ⟨b3, ?_, b5, b6⟩
      rw [b1, b2, ← f_id i]; exact b4
  · intro k t
    dsimp only
    have hlen : (b.paths ++ [pij, pji]).length = b.paths.length + 2 := by simp
    have hold : t ∈ b.out k ↔ t < b.paths.length ∧ ∃ h : t < (b.paths ++ [pij, pji]).length,
        ((b.paths ++ [pij, pji])[t]).snd = k := by
      rw [inv.out]
      constructor
      · rintro ⟨h1, h2⟩
        exact ⟨h1, by omega, by rw [List.getElem_append_left h1]; exact h2⟩
      · rintro ⟨h1, h2, h3⟩
        exact ⟨h1, by rw [List.getElem_append_left h1] at h3; exact h3⟩
    have hcase : (∃ h : t < (b.paths ++ [pij, pji]).length, ((b.paths ++ [pij, pji])[t]).snd = k) ↔
        t ∈ b.out k ∨ (t = b.paths.length ∧ i = k) ∨ (t = b.paths.length + 1 ∧ j = k) := by
      rw [hold]
      constructor
      · rintro ⟨h1, h2⟩
        rw [hlen] at h1
        rcases lt_trichotomy t b.paths.length with h | h | h
        · exact Or.inl ⟨h, by omega, h2⟩
        · subst h
          right; left
          simp [a1] at h2
          exact ⟨rfl, h2⟩
        · have : t = b.paths.length + 1 := by omega
          subst this
          right; right
          simp [b1, List.getElem_append_right] at h2
          exact ⟨rfl, h2⟩
      · rintro (⟨_, h⟩ | ⟨rfl, rfl⟩ | ⟨rfl, rfl⟩)
        · exact h
        · exact ⟨by simp, by simp [a1]⟩
        · exact ⟨by simp, by simp [b1, List.getElem_append_right]⟩
    rw [hcase]
    by_cases h1 : k = j
    · subst h1
      rw [Function.update_self, Function.update_of_ne hne.symm]
      simp [hne]
    · rw [Function.update_of_ne h1]
      by_cases h2 : k = i
      · subst h2
        rw [Function.update_self]
        simp [hne.symm]
      · rw [Function.update_of_ne h2]
        have h1' : ¬ j = k := fun h => h1 h.symm
        have h2' : ¬ i = k := fun h => h2 h.symm
        simp [h1', h2']
  · intro k
    dsimp only
    have hfresh : ∀ k t, b.paths.length ≤ t → t ∉ b.out k := by
      intro k t ht hm
      obtain ⟨h, _⟩ := (inv.out k t).1 hm
      omega
    by_cases h1 : k = j
    · subst h1
      rw [Function.update_self, Function.update_of_ne hne.symm]
      exact List.nodup_append.2 ⟨inv.outNodup k, by simp, by
        intro a ha c hc
        simp only [List.mem_singleton] at hc
        rintro rfl
        exact hfresh k _ (by omega) ha⟩
    · rw [Function.update_of_ne h1]
      by_cases h2 : k = i
      · subst h2
        rw [Function.update_self]
        exact List.nodup_append.2 ⟨inv.outNodup k, by simp, by
          intro a ha c hc
          simp only [List.mem_singleton] at hc
          rintro rfl
          exact hfresh k _ (by omega) ha⟩
      · rw [Function.update_of_ne h2]; exact inv.outNodup k
  · intro e he t ht
    simp only [List.mem_append, List.mem_singleton] at he
    rcases he with he | rfl
    · exact inv.nonempty e he t ht
    · rw [hs] at ht
      simp only [Option.some.injEq] at ht
      exact ht ▸ hs0

theorem BuildInv.skip {ops : Ops F V G} {cl : Fin n → Cl F V} {rip : Dict (Fin n × Fin n) (List Var)}
    {l : List (Fin n × Fin n)} {b : Build F V G n} (inv : BuildInv ops cl rip l b)
    {e : Fin n × Fin n} (hs : Dict.get? rip e = none) (hji : (e.2, e.1) ∉ l) (hne : e.1 ≠ e.2)
    (hnew : e ∉ l) :
    BuildInv ops cl rip (l ++ [e]) b := by
  refine { inv with sep := ?_, ends := ?_, nonempty := ?_ }
  · intro i j
    rw [inv.sep]
    by_cases h1 : (i, j) = e
    · subst h1
      simp only at hji
      simp [hnew, hji, hs]
    · by_cases h2 : (j, i) = e
      · subst h2
        simp only at hji
        simp [hnew, hji, hs, h1]
      · simp only [List.mem_append, List.mem_singleton, h1, h2, or_false]
  · rw [inv.ends, List.filter_append]
    simp [hs]
  · intro e' he' s hs'
    simp only [List.mem_append, List.mem_singleton] at he'
    rcases he' with he' | rfl
    · exact inv.nonempty e' he' s hs'
    · rw [hs] at hs'; cases hs'

theorem buildGraph_inv {hs : HashSeed} {ops : Ops F V G} {cl : Fin n → Cl F V} {evVars : List Var}
    {b : Build F V G n} (h : buildGraph hs ops cl evVars = .ok b) :
    Function.Injective (fun i => (cl i).id) ∧
    BuildInv ops cl (ripSepsets hs (fun i => ops.vars (cl i).factor) evVars) (pairs n) b := by
  unfold buildGraph at h
  obtain ⟨_, h0, h⟩ := py_bind_eq_ok.1 h
  rw [pyGuard_eq_ok, beq_iff_eq] at h0
  have hid : Function.Injective (fun i => (cl i).id) := by
    have hd : ((List.finRange n).map fun i => (cl i).id).Nodup := by
      have : ((List.finRange n).map fun i => (cl i).id).dedup =
          (List.finRange n).map fun i => (cl i).id :=
        (List.dedup_sublist _).eq_of_length h0
      rw [← this]; exact List.nodup_dedup _
    intro i j hij
    exact List.inj_on_of_nodup_map hd (List.mem_finRange i) (List.mem_finRange j) hij
  refine ⟨hid, ?_⟩
  unfold buildLoop at h
  refine foldlM_inv (BuildInv ops cl (ripSepsets hs (fun i => ops.vars (cl i).factor) evVars)) ?_ ?_ h
  · refine ⟨fun _ => rfl, fun _ => rfl, fun _ => rfl, fun _ => rfl, fun i j => ?_, rfl, ?_, ?_, ?_, ?_⟩
    · simp [Dict.get?]
    · intro p hp; simp at hp
    · intro i k; simp
    · intro i; simp
    · intro e he; simp at he
  · intro l e l' s s' hL inv hstep
    have hnd := nodup_pairs n
    rw [hL] at hnd
    have hnew : e ∉ l := by
      intro hm
      exact (List.nodup_append.1 hnd).2.2 _ hm _ (by simp) rfl
    have hlt : ∀ e ∈ l, e.1 < e.2 := fun e he => mem_pairs.1 (by rw [hL]; simp [he])
    have he : e.1 < e.2 := mem_pairs.1 (by rw [hL]; simp)
    split at hstep
    · rename_i sep hsep
      exact inv.edge hid hlt he hnew hsep hstep
    · rename_i hnone
      simp only [Except.ok.injEq] at hstep
      subst hstep
      exact inv.skip hnone (fun hm => absurd (hlt _ hm) (not_lt.2 he.le)) he.ne hnew

end CG
end Verif
