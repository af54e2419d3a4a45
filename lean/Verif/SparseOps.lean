import Verif.SparseBinary
import Verif.SpecLemmas

/-! Helper lemmas: what the remaining sparse operations compute. -/

set_option linter.unusedSectionVars false

namespace Verif.Sparse
open Spec (Asg)
variable {K : Type}

/-- A regular factor: well formed, proper values, and missing entries mean probability zero. -/
structure Regular (f : Sparse K) : Prop where
  wf : WF f
  proper : ∀ e ∈ f.table, e.2.Proper
  dflt : f.dflt = .ninf

/-- The probability (potential) a factor gives to an assignment. -/
noncomputable def prob (f : Sparse ℝ) (x : Asg) : ℝ := (f.val x).prob

theorem val_of_mem {f : Sparse K} (hf : WF f) {e : List Nat × XF K} (he : e ∈ f.table) :
    f.val (asgOf f.vars e.1) = e.2 := by
  unfold val
  rw [hf.mem_key (List.mem_map.2 ⟨e, he, rfl⟩), Dict.get?_of_mem hf.keys he]; rfl

theorem Regular.val_proper {f : Sparse K} (hf : Regular f) (x : Asg) : (f.val x).Proper := by
  unfold val
  cases h : Dict.get? f.table (f.vars.map x) with
  | none => simp [hf.dflt, XF.Proper]
  | some v => exact hf.proper _ (Dict.mem_of_get? h)

theorem regular_of_val {f : Sparse K} (hf : WF f) (hd : f.dflt = .ninf) (h : ∀ x, (f.val x).Proper) :
    Regular f := ⟨hf, fun _ he => val_of_mem hf he ▸ h _, hd⟩

/-! ### marginalize -/

theorem mem_marginalVars {hs : HashSeed} {scope vrs : List Var} {keep : Bool} {v : Var}
    (hv : ∀ v ∈ vrs, v ∈ scope) :
    v ∈ marginalVars hs scope vrs keep ↔ v ∈ scope ∧ (v ∈ vrs ↔ keep = true) := by
  unfold marginalVars
  cases keep
  · simp
  · simp only [if_true, iff_true]
    exact ⟨fun h => ⟨hv v h, h⟩, fun h => h.2⟩

theorem nodup_marginalVars {hs : HashSeed} {scope vrs : List Var} {keep : Bool} (hn : vrs.Nodup) :
    (marginalVars hs scope vrs keep).Nodup := by
  unfold marginalVars
  cases keep
  · exact hs.strs.nodup _
  · exact hn

theorem perm_keep_sum {keepVars scope : List Var} (hk : keepVars.Nodup) (hs : scope.Nodup)
    (hsub : ∀ v ∈ keepVars, v ∈ scope) :
    (keepVars ++ scope.filter (· ∉ keepVars)).Perm scope := by
  rw [List.perm_ext_iff_of_nodup _ hs]
  · intro v
    simp only [List.mem_append, List.mem_filter, decide_eq_true_eq]
    constructor
    · rintro (h | h)
      · exact hsub v h
      · exact h.1
    · intro h; by_cases hv : v ∈ keepVars <;> tauto
  · rw [List.nodup_append']
    refine ⟨hk, hs.filter _, ?_⟩
    intro v h1 h2
    simp only [List.mem_filter, decide_eq_true_eq] at h2
    exact h2.2 h1

theorem dict_del_foldlM {l : List Var} (d : Dict Var Nat) (hl : l.Nodup)
    (hsub : ∀ v ∈ l, v ∈ Dict.keys d) :
    l.foldlM (fun d v => Dict.del d v) d = .ok (d.filter fun e => e.1 ∉ l) := by
  induction l generalizing d with
  | nil => simp
  | cons v l ih =>
    simp only [List.nodup_cons] at hl
    rw [List.foldlM_cons]
    have hv : v ∈ Dict.keys d := hsub v (by simp)
    rw [show Dict.del d v = .ok (d.filter fun e => e.1 ≠ v) by simp [Dict.del, hv]]
    simp only [py_bind_ok]
    rw [ih _ hl.2, List.filter_filter]
    · congr 2
      funext e
      simp only [List.mem_cons, not_or]
      by_cases h1 : e.1 = v <;> by_cases h2 : e.1 ∈ l <;> simp [h1, h2]
    · intro w hw
      have hwd := hsub w (by simp [hw])
      obtain ⟨e, he, rfl⟩ := List.mem_map.1 hwd
      refine List.mem_map.2 ⟨e, ?_, rfl⟩
      simp only [List.mem_filter, he, true_and, ne_eq, decide_not, Bool.not_eq_true',
        decide_eq_false_iff_not]
      rintro rfl
      exact hl.1 hw

/-- The table computed by `marginalize`. -/
noncomputable def margTable (outer inner old : List Var) (t : Dict (List Nat) (XF ℝ)) :
    Dict (List Nat) (XF ℝ) :=
  (nest outer inner old t).map fun e => (e.1, XF.ofProb ((Dict.values e.2).map XF.prob).sum)

theorem nest_sub {outer inner : List Var} {f : Sparse K} (hf : WF f)
    (hp : (outer ++ inner).Perm f.vars) {e : List Nat × Dict (List Nat) (XF K)}
    (he : e ∈ nest outer inner f.vars f.table) :
    e.2 = subTable outer inner f.vars f.table e.1 ∧ e.2 ≠ [] := by
  have h := Dict.get?_of_mem (nodup_keys_nest outer inner f.vars f.table) he
  rw [get?_nest hp hf.nodup hf.keyLen hf.keys] at h
  split at h
  · cases h
  · rename_i hne
    simp only [Option.some.injEq] at h
    exact ⟨h.symm, h ▸ hne⟩

theorem subTable_values_proper {outer inner : List Var} {f : Sparse K} (hf : Regular f) (o : List Nat) :
    ∀ a ∈ Dict.values (subTable outer inner f.vars f.table o), a.Proper := by
  intro a ha
  simp only [Dict.values, subTable, List.map_map, List.mem_map, List.mem_filter] at ha
  obtain ⟨e, ⟨he, _⟩, rfl⟩ := ha
  exact hf.proper e he

theorem keys_margTable (outer inner old : List Var) (t : Dict (List Nat) (XF ℝ)) :
    Dict.keys (margTable outer inner old t) = Dict.keys (nest outer inner old t) := by
  unfold margTable Dict.keys
  rw [List.map_map]; rfl

theorem margTable_fold {outer inner : List Var} {f : Sparse ℝ} (hf : Regular f)
    (hp : (outer ++ inner).Perm f.vars) :
    (nest outer inner f.vars f.table).foldlM (fun res e => do
      let p ← XF.logsumexp (Dict.values e.2)
      (.ok (Dict.set res e.1 p) : Py (Dict (List Nat) (XF ℝ)))) []
      = .ok (margTable outer inner f.vars f.table) := by
  rw [foldlM_ok (g := fun res e => Dict.set res e.1 (XF.ofProb ((Dict.values e.2).map XF.prob).sum))]
  · congr 1
    have hn : ((margTable outer inner f.vars f.table).map Prod.fst).Nodup := by
      have := keys_margTable outer inner f.vars f.table
      unfold Dict.keys at this
      rw [this]
      exact nodup_keys_nest outer inner f.vars f.table
    have := Dict.ofPairs_eq hn
    unfold Dict.ofPairs margTable at this
    rw [List.foldl_map] at this
    exact this
  · intro res e he
    obtain ⟨h1, h2⟩ := nest_sub hf.wf hp he
    rw [XF.logsumexp_proper]
    · rfl
    · intro h
      exact h2 (by simpa [Dict.values] using h)
    · rw [h1]; exact subTable_values_proper hf _

/-- The factor returned by `marginalize`. -/
noncomputable def margResult (f : Sparse ℝ) (keepVars : List Var) : Sparse ℝ :=
  ⟨keepVars, keepVars.map f.card,
   margTable keepVars (f.vars.filter (· ∉ keepVars)) f.vars f.table, .ninf⟩

theorem marginalize_eq (hs : HashSeed) {f : Sparse ℝ} (hf : Regular f) {vrs : List Var} (hn : vrs.Nodup)
    (hv : ∀ v ∈ vrs, v ∈ f.vars) (keep : Bool) :
    marginalize hs f vrs keep = .ok (margResult f (marginalVars hs f.vars vrs keep)) := by
  have hk := nodup_marginalVars (hs := hs) (scope := f.vars) (keep := keep) hn
  have hsub : ∀ v ∈ marginalVars hs f.vars vrs keep, v ∈ f.vars := fun v h =>
    ((mem_marginalVars hv).1 h).1
  have hp := perm_keep_sum hk hf.wf.nodup hsub
  unfold marginalize
  dsimp only
  rw [nestedSorted_eq hp hf.wf.nodup hf.wf.keyLen]
  simp only [py_bind_ok]
  rw [margTable_fold hf hp, dict_del_foldlM]
  · simp only [py_bind_ok]
    rw [mapM_ok (g := f.card) fun v hv => getItem_ok (hf.wf.get?_varCards (hsub v hv))]
    simp only [py_bind_ok]
    unfold new
    rw [if_neg (not_not.2 hk), if_neg (by simp)]
    rfl
  · exact hf.wf.nodup.filter _
  · intro v hv'
    unfold varCards
    rw [keys_zip hf.wf.cardsLen]
    exact (List.mem_filter.1 hv').1

theorem margResult_val {f : Sparse ℝ} (hf : Regular f) {keepVars : List Var} (hk : keepVars.Nodup)
    (hsub : ∀ v ∈ keepVars, v ∈ f.vars) (x : Asg) :
    (margResult f keepVars).val x = XF.ofProb
      ((Dict.values (subTable keepVars (f.vars.filter (· ∉ keepVars)) f.vars f.table
        (keepVars.map x))).map XF.prob).sum := by
  have hp := perm_keep_sum hk hf.wf.nodup hsub
  unfold val margResult margTable
  simp only
  rw [Dict.get?_map_val (fun s => XF.ofProb ((Dict.values s).map XF.prob).sum),
    get?_nest hp hf.wf.nodup hf.wf.keyLen hf.wf.keys]
  split
  · rename_i h
    rw [h]; simp [Dict.values, XF.ofProb]
  · rfl

theorem prob_eq_elim {f : Sparse ℝ} (hd : f.dflt = .ninf) (x : Asg) :
    f.prob x = ((Dict.get? f.table (f.vars.map x)).map XF.prob).getD 0 := by
  unfold prob val
  cases Dict.get? f.table (f.vars.map x) <;> simp [hd, XF.prob]

theorem map_updates_keep {x : Asg} {keepVars out : List Var} (t : List Nat)
    (hd : ∀ v ∈ keepVars, v ∉ out) : keepVars.map (Spec.updates x out t) = keepVars.map x :=
  List.map_congr_left fun v hv => Spec.updates_of_not_mem (hd v hv)

theorem margResult_prob {f : Sparse ℝ} (hf : Regular f) {keepVars : List Var} (hk : keepVars.Nodup)
    (hsub : ∀ v ∈ keepVars, v ∈ f.vars) (x : Asg) :
    (margResult f keepVars).prob x =
      Spec.sumVars ((f.vars.filter (· ∉ keepVars)).map fun v => (v, f.card v)) f.prob x := by
  have hp := perm_keep_sum hk hf.wf.nodup hsub
  set out := f.vars.filter (· ∉ keepVars) with hout
  have hon : out.Nodup := hf.wf.nodup.filter _
  have hzip : (out.map fun v => (v, f.card v)) = out.zip (out.map f.card) :=
    (zip_map_self _ _).symm
  rw [hzip, Spec.sumVars_eq _ _ (by simp)]
  unfold prob
  rw [margResult_val hf hk hsub, XF.prob_ofProb]
  · have hs := nodup_keys_subTable hp hf.wf.nodup hf.wf.keyLen hf.wf.keys (keepVars.map x)
    have := Spec.sum_dict (productRange (out.map f.card)) (nodup_productRange _)
      (subTable keepVars out f.vars f.table (keepVars.map x)) hs ?_ XF.prob
    · rw [show (Dict.values (subTable keepVars out f.vars f.table (keepVars.map x))).map XF.prob
        = (subTable keepVars out f.vars f.table (keepVars.map x)).map fun e => XF.prob e.2 by
          simp [Dict.values]]
      rw [← this]
      congr 1
      apply List.map_congr_left
      intro t ht
      have hl : t.length = out.length := by simpa using length_of_mem_productRange ht
      have h1 := get?_subTable hp hf.wf.nodup hf.wf.keyLen hf.wf.keys (Spec.updates x out t)
      rw [Spec.map_updates hon hl, map_updates_keep] at h1
      · rw [h1]
        exact (prob_eq_elim hf.dflt _).symm
      · intro v hv hv'
        exact (of_decide_eq_true (List.mem_filter.1 hv').2) hv
    · intro k hkm
      obtain ⟨y, rfl, _, e, he, rfl⟩ := subTable_keyLen _ _ _ _ _ k hkm
      rw [mem_productRange, forall₂_map]
      intro v hv
      exact hf.wf.key_range (List.mem_map.2 ⟨e, he, rfl⟩) (List.mem_filter.1 hv).1
  · exact List.sum_nonneg fun a ha => by
      obtain ⟨b, _, rfl⟩ := List.mem_map.1 ha
      exact XF.prob_nonneg b

theorem margResult_regular {f : Sparse ℝ} (hf : Regular f) {keepVars : List Var} (hk : keepVars.Nodup)
    (hsub : ∀ v ∈ keepVars, v ∈ f.vars) : Regular (margResult f keepVars) := by
  have hp := perm_keep_sum hk hf.wf.nodup hsub
  refine regular_of_val ⟨hk, by simp [margResult], ?_, ?_⟩ rfl fun x => ?_
  · unfold margResult; simp only [keys_margTable]; exact nodup_keys_nest _ _ _ _
  · intro k hkm
    unfold margResult at hkm
    simp only [keys_margTable] at hkm
    obtain ⟨e, he, rfl⟩ := (mem_keys_nest hp hf.wf.nodup hf.wf.keyLen hf.wf.keys).1 hkm
    unfold margResult
    simp only [forall₂_map]
    exact fun v hv => hf.wf.key_range (List.mem_map.2 ⟨e, he, rfl⟩) (hsub v hv)
  · rw [margResult_val hf hk hsub]; exact XF.proper_ofProb _

theorem margResult_card {f : Sparse ℝ} {keepVars : List Var} {v : Var} (hv : v ∈ keepVars) :
    (margResult f keepVars).card v = f.card v := by
  unfold card varCards margResult
  simp only
  rw [Dict.get?_zip_map _ _ _ hv]; rfl

/-! ### reduce -/

/-- The factor returned by `reduce`. -/
def redResult (f : Sparse K) (vrs : List Var) (values : List Nat) : Sparse K :=
  ⟨f.vars.filter (· ∉ vrs), (f.vars.filter (· ∉ vrs)).map f.card,
   subTable vrs (f.vars.filter (· ∉ vrs)) f.vars f.table values, .ninf⟩

theorem filter_zip_values {f : Sparse K} (hf : WF f) (vrs : List Var) :
    Dict.values (f.varCards.filter fun e => e.1 ∉ vrs) = (f.vars.filter (· ∉ vrs)).map f.card := by
  unfold varCards
  rw [hf.cards_eq, zip_map_self]
  unfold Dict.values
  rw [List.filter_map, List.map_map]
  rfl

theorem reduce_eq {f : Sparse K} (hf : WF f) {vrs : List Var} (hn : vrs.Nodup)
    (hv : ∀ v ∈ vrs, v ∈ f.vars) (values : List Nat) :
    reduce f vrs values =
      if subTable vrs (f.vars.filter (· ∉ vrs)) f.vars f.table values = [] then .error .keyError
      else .ok (redResult f vrs values) := by
  have hp := perm_keep_sum hn hf.nodup hv
  unfold reduce
  dsimp only
  rw [nestedSorted_eq hp hf.nodup hf.keyLen]
  simp only [py_bind_ok]
  unfold Dict.getItem
  rw [get?_nest hp hf.nodup hf.keyLen hf.keys]
  split
  · rename_i lp h
    split at h
    · cases h
    · rename_i hne
      simp only [Option.some.injEq] at h
      rw [if_neg hne, dict_del_foldlM _ hn]
      · simp only [py_bind_ok, filter_zip_values hf]
        unfold new
        rw [if_neg (not_not.2 (hf.nodup.filter _)), if_neg (by simp)]
        rw [← h]; rfl
      · intro v hv'
        unfold varCards
        rw [keys_zip hf.cardsLen]
        exact hv v hv'
  · rename_i h
    split at h
    · rename_i he
      rw [if_pos he]; rfl
    · cases h

theorem redResult_val {f : Sparse K} (hf : WF f) (hd : f.dflt = .ninf) {vrs : List Var} (hn : vrs.Nodup)
    (hv : ∀ v ∈ vrs, v ∈ f.vars) {values : List Nat} (hl : values.length = vrs.length) (x : Asg) :
    (redResult f vrs values).val x = f.val (Spec.override (vrs.zip values) x) := by
  have hp := perm_keep_sum hn hf.nodup hv
  have := get?_subTable hp hf.nodup hf.keyLen hf.keys (Spec.override (vrs.zip values) x)
  rw [Spec.map_override hn hl] at this
  unfold val redResult
  simp only
  rw [← this, hd]
  congr 2
  apply List.map_congr_left
  intro v hv'
  rw [Spec.override_of_not_mem]
  exact of_decide_eq_true (List.mem_filter.1 hv').2

theorem redResult_wf {f : Sparse K} (hf : WF f) {vrs : List Var} (hn : vrs.Nodup)
    (hv : ∀ v ∈ vrs, v ∈ f.vars) (values : List Nat) : WF (redResult f vrs values) := by
  have hp := perm_keep_sum hn hf.nodup hv
  refine ⟨hf.nodup.filter _, by simp [redResult], nodup_keys_subTable hp hf.nodup hf.keyLen hf.keys _, ?_⟩
  intro k hk
  obtain ⟨y, rfl, _, e, he, rfl⟩ := subTable_keyLen _ _ _ _ _ k hk
  unfold redResult
  simp only [forall₂_map]
  exact fun v hv => hf.key_range (List.mem_map.2 ⟨e, he, rfl⟩) (List.mem_filter.1 hv).1

theorem subTable_eq_nil_iff {outer inner old : List Var} {t : Dict (List Nat) (XF K)} {o : List Nat} :
    subTable outer inner old t o = [] ↔ ∀ e ∈ t, outer.map (asgOf old e.1) ≠ o := by
  simp [subTable, List.filter_eq_nil_iff]

theorem redResult_regular {f : Sparse K} (hf : Regular f) {vrs : List Var} (hn : vrs.Nodup)
    (hv : ∀ v ∈ vrs, v ∈ f.vars) (values : List Nat) : Regular (redResult f vrs values) := by
  refine ⟨redResult_wf hf.wf hn hv values, ?_, rfl⟩
  intro e he
  have := subTable_values_proper hf values (outer := vrs) (inner := f.vars.filter (· ∉ vrs)) e.2
  exact this (List.mem_map.2 ⟨e, he, rfl⟩)

/-! ### reorder -/

/-- The factor returned by `reorder`. -/
def reorderResult (f : Sparse K) (newVars : List Var) : Sparse K :=
  ⟨newVars, newVars.map f.card, f.table.map fun e => (newVars.map (asgOf f.vars e.1), e.2), .ninf⟩

theorem mapM_pyGet {vars newVars : List Var} {l : List Nat} (hn : vars.Nodup)
    (hl : l.length = vars.length) (hsub : ∀ v ∈ newVars, v ∈ vars) :
    (newVars.map fun v => vars.idxOf v).mapM (pyGet l) = .ok (newVars.map (asgOf vars l)) := by
  rw [List.mapM_map]
  apply mapM_ok
  intro v hv
  apply pyGet_ok
  conv_lhs => rw [← map_asgOf hn hl]
  exact getElem?_map_idxOf _ (hsub v hv)

theorem asgOf_cards {f : Sparse K} (hf : WF f) {v : Var} (hv : v ∈ f.vars) :
    asgOf f.vars f.cards v = f.card v := by
  unfold card varCards
  rw [get?_zip _ hf.nodup hf.cardsLen hv]; rfl

theorem reorder_inj {f : Sparse K} (hf : WF f) {newVars : List Var} (hp : newVars.Perm f.vars) :
    ((f.table.map fun e => (newVars.map (asgOf f.vars e.1), e.2)).map Prod.fst).Nodup := by
  rw [List.map_map]
  refine List.Nodup.map_on ?_ (List.Nodup.of_map _ hf.keys)
  intro a ha b hb hab
  simp only [Function.comp_apply, map_eq_map_iff'] at hab
  have h1 := hf.mem_key (List.mem_map.2 ⟨a, ha, rfl⟩)
  have h2 := hf.mem_key (List.mem_map.2 ⟨b, hb, rfl⟩)
  have : a.1 = b.1 := by
    rw [← h1, ← h2, map_eq_map_iff']
    exact fun v hv => hab v (hp.mem_iff.2 hv)
  exact List.inj_on_of_nodup_map hf.keys ha hb this

theorem reorder_eq {f : Sparse K} (hf : WF f) {newVars : List Var} (hp : newVars.Perm f.vars) :
    reorder f newVars = .ok (reorderResult f newVars) := by
  unfold reorder
  have hsub : ∀ v ∈ newVars, v ∈ f.vars := fun v hv => hp.mem_iff.1 hv
  rw [mapM_ok (g := fun v => f.vars.idxOf v) fun v hv => pyIndex_ok (hsub v hv)]
  simp only [py_bind_ok]
  rw [foldlM_ok (g := fun t e => Dict.set t (newVars.map (asgOf f.vars e.1)) e.2)]
  · simp only [py_bind_ok]
    rw [mapM_pyGet hf.nodup hf.cardsLen hsub]
    simp only [py_bind_ok]
    unfold new
    rw [if_neg (not_not.2 (hp.nodup_iff.2 hf.nodup)), if_neg (by simp)]
    have := Dict.ofPairs_eq (reorder_inj hf hp)
    unfold Dict.ofPairs at this
    rw [List.foldl_map] at this
    rw [this]
    unfold reorderResult
    congr 2
    exact List.map_congr_left fun v hv => asgOf_cards hf (hsub v hv)
  · intro t e he
    rw [mapM_pyGet hf.nodup (hf.keyLen _ (List.mem_map.2 ⟨e, he, rfl⟩)) hsub]
    rfl

theorem reorderResult_get? {f : Sparse K} (hf : WF f) {newVars : List Var} (hp : newVars.Perm f.vars)
    (x : Asg) : Dict.get? (reorderResult f newVars).table (newVars.map x)
      = Dict.get? f.table (f.vars.map x) := by
  unfold reorderResult
  have := Dict.get?_map_inj (fun k => newVars.map (asgOf f.vars k)) f.table (f.vars.map x) ?_
  · rw [← this]
    congr 1
    exact List.map_congr_left fun v hv => (asgOf_map x (hp.mem_iff.1 hv)).symm
  · intro k hk h
    rw [map_eq_map_iff'] at h
    rw [← hf.mem_key hk, map_eq_map_iff']
    intro v hv
    rw [h v (hp.mem_iff.2 hv), asgOf_map x hv]

theorem reorderResult_wf {f : Sparse K} (hf : WF f) {newVars : List Var} (hp : newVars.Perm f.vars) :
    WF (reorderResult f newVars) := by
  refine ⟨hp.nodup_iff.2 hf.nodup, by simp [reorderResult], reorder_inj hf hp, ?_⟩
  intro k hk
  simp only [reorderResult, Dict.keys, List.map_map, List.mem_map, Function.comp] at hk
  obtain ⟨e, he, rfl⟩ := hk
  simp only [reorderResult, forall₂_map]
  exact fun v hv => hf.key_range (List.mem_map.2 ⟨e, he, rfl⟩) (hp.mem_iff.1 hv)

theorem reorderResult_val {f : Sparse K} (hf : WF f) (hd : f.dflt = .ninf) {newVars : List Var}
    (hp : newVars.Perm f.vars) (x : Asg) : (reorderResult f newVars).val x = f.val x := by
  have := reorderResult_get? hf hp x
  unfold val
  rw [show (reorderResult f newVars).vars = newVars from rfl, this, hd]; rfl

theorem reorderResult_card {f : Sparse K} {newVars : List Var} {v : Var}
    (hv : v ∈ newVars) : (reorderResult f newVars).card v = f.card v := by
  unfold card varCards reorderResult
  simp only
  rw [Dict.get?_zip_map _ _ _ hv]; rfl

/-! ### normalize -/

theorem copy_eq {f : Sparse K} (hf : WF f) : f.copy = .ok f := by
  unfold copy new
  rw [if_neg (not_not.2 hf.nodup), if_neg (not_not.2 hf.cardsLen)]

/-- Total mass over all assignments of the scope. -/
noncomputable def mass (f : Sparse ℝ) : ℝ :=
  Spec.sumVars (f.vars.map fun v => (v, f.card v)) f.prob (fun _ => 0)

theorem zip_cards {f : Sparse K} (vs : List Var) :
    (vs.map fun v => (v, f.card v)) = vs.zip (vs.map f.card) := (zip_map_self _ _).symm

/-- Sum over all assignments of a function of the table entry. -/
theorem sum_all {f : Sparse ℝ} (hf : WF f) (h : XF ℝ → ℝ) (x : Asg) :
    Spec.sumVars (f.vars.map fun v => (v, f.card v))
      (fun x => ((Dict.get? f.table (f.vars.map x)).map h).getD 0) x
      = (f.table.map fun e => h e.2).sum := by
  rw [zip_cards, Spec.sumVars_eq _ _ (by simp),
    ← Spec.sum_dict (productRange (f.vars.map f.card)) (nodup_productRange _) f.table hf.keys]
  · congr 1
    apply List.map_congr_left
    intro t ht
    rw [Spec.map_updates hf.nodup (by simpa using length_of_mem_productRange ht)]
  · intro k hk
    rw [mem_productRange, ← hf.cards_eq]
    exact hf.range k hk

theorem mass_eq {f : Sparse ℝ} (hf : Regular f) : f.mass = ((Dict.values f.table).map XF.prob).sum := by
  unfold mass
  have := sum_all hf.wf XF.prob (fun _ => 0)
  rw [show f.prob = fun x => ((Dict.get? f.table (f.vars.map x)).map XF.prob).getD 0 from
    funext (prob_eq_elim hf.dflt), this]
  simp [Dict.values, Function.comp_def]

theorem sumVars_const_indep {f : Sparse ℝ} (hf : Regular f) (x : Asg) :
    Spec.sumVars (f.vars.map fun v => (v, f.card v)) f.prob x = f.mass := by
  rw [mass_eq hf, show f.prob = fun x => ((Dict.get? f.table (f.vars.map x)).map XF.prob).getD 0 from
    funext (prob_eq_elim hf.dflt), sum_all hf.wf XF.prob x]
  simp [Dict.values, Function.comp_def]

/-- The factor returned by `normalize`. -/
noncomputable def normResult (f : Sparse ℝ) : Sparse ℝ :=
  { f with table := f.table.map fun e => (e.1, XF.sub e.2 (XF.ofProb f.mass)) }

theorem normalize_eq {f : Sparse ℝ} (hf : Regular f) :
    normalize f = if f.table = [] then .error .valueError else .ok (normResult f) := by
  unfold normalize
  rw [copy_eq hf.wf]
  simp only [py_bind_ok]
  split
  · rename_i h
    simp [h, Dict.values, XF.logsumexp]
  · rename_i h
    rw [XF.logsumexp_proper]
    · rw [← mass_eq hf]; rfl
    · simpa [Dict.values] using h
    · intro a ha
      obtain ⟨e, he, rfl⟩ := List.mem_map.1 ha
      exact hf.proper e he

theorem mass_nonneg {f : Sparse ℝ} (hf : Regular f) : 0 ≤ f.mass := by
  rw [mass_eq hf]
  exact List.sum_nonneg fun a ha => by
      obtain ⟨b, _, rfl⟩ := List.mem_map.1 ha
      exact XF.prob_nonneg b

theorem normResult_wf {f : Sparse ℝ} (hf : WF f) : WF (normResult f) := by
  have hk : Dict.keys (normResult f).table = Dict.keys f.table := by
    simp [normResult, Dict.keys]
  exact ⟨hf.nodup, hf.cardsLen, hk ▸ hf.keys, hk ▸ hf.range⟩

theorem prob_sub {a : XF ℝ} (ha : a.Proper) {m : ℝ} (hm : 0 < m) :
    (XF.sub a (XF.ofProb m)).Proper ∧ XF.prob (XF.sub a (XF.ofProb m)) = XF.prob a / m := by
  unfold XF.ofProb
  rw [if_neg hm.ne']
  cases a <;> simp_all [XF.sub, XF.prob, XF.Proper, Real.exp_sub, Real.exp_log hm]

theorem normResult_regular {f : Sparse ℝ} (hf : Regular f) (hm : 0 < f.mass) :
    Regular (normResult f) := by
  refine ⟨normResult_wf hf.wf, ?_, hf.dflt⟩
  intro e he
  simp only [normResult, List.mem_map] at he
  obtain ⟨e, he, rfl⟩ := he
  exact (prob_sub (hf.proper e he) hm).1

theorem normResult_prob {f : Sparse ℝ} (hf : Regular f) (hm : 0 < f.mass) (x : Asg) :
    (normResult f).prob x = f.prob x / f.mass := by
  rw [prob_eq_elim (f := normResult f) hf.dflt, prob_eq_elim hf.dflt]
  unfold normResult
  simp only
  rw [Dict.get?_map_val (fun a => XF.sub a (XF.ofProb f.mass))]
  cases h : Dict.get? f.table (f.vars.map x) with
  | none => simp
  | some v =>
    simp only [Option.map_some, Option.getD_some]
    exact (prob_sub (hf.proper _ (Dict.mem_of_get? h)) hm).2

theorem normResult_mass {f : Sparse ℝ} (hf : Regular f) (hm : 0 < f.mass) :
    (normResult f).mass = 1 := by
  rw [mass_eq (normResult_regular hf hm)]
  have : ((Dict.values (normResult f).table).map XF.prob)
      = ((Dict.values f.table).map XF.prob).map (· / f.mass) := by
    simp only [normResult, Dict.values, List.map_map]
    apply List.map_congr_left
    intro e he
    exact (prob_sub (hf.proper e he) hm).2
  have hdiv : ∀ l : List ℝ, (l.map (· / f.mass)).sum = l.sum / f.mass := by
    intro l
    induction l with
    | nil => simp
    | cons a l ih => simp [ih, add_div]
  rw [this, hdiv, ← mass_eq hf, div_self hm.ne']

end Verif.Sparse
