import Verif.ClusterRun

/-!
# Beliefs and messages under any execution

For a lawful factor class: what the cluster factors and messages denote after any sequence of message
passes.
-/

namespace Verif.CG
open Spec (DependsOn override)
variable {F V G : Type} {n m : Nat} {D : Type} {ops : Ops F V G}

/-! ### Evidence -/

/-- The value an evidence dictionary gives a variable. -/
def evPairs (L : Laws ops D) (ev : Dict Var V) : List (Var × D) := ev.map fun e => (e.1, L.val e.2)

theorem override_apply (L : Laws ops D) (ev : Dict Var V) (x : Var → D) (v : Var) :
    override (evPairs L ev) x v = ((Dict.get? ev v).map L.val).getD (x v) := by
  induction ev with
  | nil => rfl
  | cons e ev ih =>
    unfold evPairs at *
    rw [List.map_cons, Spec.override_cons]
    by_cases h : v = e.1
    · subst h
      rw [Function.update_self]
      simp [Dict.get?]
    · rw [Function.update_of_ne h, ih]
      simp [Dict.get?, Ne.symm h]

theorem subsetEvidence_pairs (ev : Dict Var V) {vars : List Var} (hn : vars.Nodup) :
    subsetEvidence ev vars = vars.filterMap fun v => (Dict.get? ev v).map fun x => (v, x) := by
  unfold subsetEvidence
  apply Dict.ofPairs_eq
  have : ((vars.filterMap fun v => (Dict.get? ev v).map fun x => (v, x)).map Prod.fst) =
      vars.filter fun v => (Dict.get? ev v).isSome := by
    clear hn
    induction vars with
    | nil => rfl
    | cons v vars ih =>
      simp only [List.filterMap_cons, List.filter_cons]
      cases h : Dict.get? ev v <;> simp [ih]
  rw [this]
  exact hn.filter _

theorem keys_subsetEvidence (ev : Dict Var V) {vars : List Var} (hn : vars.Nodup) :
    Dict.keys (subsetEvidence ev vars) = vars.filter fun v => (Dict.get? ev v).isSome := by
  rw [subsetEvidence_pairs ev hn, Dict.keys]
  clear hn
  induction vars with
  | nil => rfl
  | cons v vars ih =>
    simp only [List.filterMap_cons, List.filter_cons]
    cases h : Dict.get? ev v <;> simp [ih]

theorem get?_subsetEvidence (ev : Dict Var V) {vars : List Var} (hn : vars.Nodup) {v : Var} (hv : v ∈ vars) :
    Dict.get? (subsetEvidence ev vars) v = Dict.get? ev v := by
  rw [subsetEvidence_pairs ev hn]
  clear hn
  induction vars with
  | nil => simp at hv
  | cons w vars ih =>
    rw [List.filterMap_cons]
    by_cases hw : v = w
    · subst hw
      cases h : Dict.get? ev v with
      | none =>
        simp only [Option.map_none]
        by_cases hv' : v ∈ vars
        · rw [ih hv', h]
        · rw [Dict.get?_eq_none_iff]
          intro hk
          obtain ⟨e, he, rfl⟩ := List.mem_map.1 hk
          obtain ⟨u, hu, hue⟩ := List.mem_filterMap.1 he
          obtain ⟨y, hy, rfl⟩ := Option.map_eq_some_iff.1 hue
          exact hv' hu
      | some y => simp [Dict.get?]
    · have hv' : v ∈ vars := by simpa [hw] using hv
      cases h : Dict.get? ev w with
      | none => simpa using ih hv'
      | some y =>
        simp only [Option.map_some]
        rw [← ih hv']
        simp [Dict.get?, Ne.symm hw]

theorem zip_keys_values (d : Dict Var V) (f : V → D) :
    (Dict.keys d).zip ((Dict.values d).map f) = d.map fun e => (e.1, f e.2) := by
  induction d with
  | nil => rfl
  | cons e d ih => simpa [Dict.keys, Dict.values] using ih

/-- Reducing with the part of the evidence that concerns the factor substitutes the evidence. -/
theorem Laws.red_subset (L : Laws ops D) {f r : F} (hf : L.Ok f) (ev : Dict Var V) {vars : List Var}
    (hn : vars.Nodup) (hv : ∀ v, v ∈ vars ↔ v ∈ ops.vars f)
    (h : ops.reduce f (Dict.keys (subsetEvidence ev vars)) (Dict.values (subsetEvidence ev vars)) = .ok r) :
    L.Ok r ∧ (∀ v, v ∈ ops.vars r ↔ v ∈ ops.vars f ∧ v ∉ Dict.keys ev) ∧
      ∀ x, L.den r x = L.den f (override (evPairs L ev) x) := by
  have hk := keys_subsetEvidence ev hn
  have hmem : ∀ v, v ∈ Dict.keys (subsetEvidence ev vars) ↔ v ∈ ops.vars f ∧ v ∈ Dict.keys ev := by
    intro v
    rw [hk, List.mem_filter, hv, ← Dict.get?_isSome_iff, Option.isSome_iff_exists]
  obtain ⟨h1, h2, h3⟩ := L.red hf (by rw [hk]; exact hn.filter _) (fun v hv => ((hmem v).1 hv).1)
    (by simp [Dict.keys, Dict.values]) h
  refine ⟨h1, fun v => ?_, fun x => ?_⟩
  · rw [h2, hmem]; tauto
  · rw [h3, zip_keys_values]
    apply L.dep hf
    intro v hvf
    rw [show (List.map (fun e => (e.1, L.val e.2)) (subsetEvidence ev vars)) =
      evPairs L (subsetEvidence ev vars) from rfl, override_apply, override_apply,
      get?_subsetEvidence ev hn ((hv v).2 hvf)]

theorem Laws.observe (L : Laws ops D) {f r : F} (hf : L.Ok f) (ev : Dict Var V)
    (h : CG.observe ops ev f = .ok r) :
    L.Ok r ∧ (∀ v, v ∈ ops.vars r ↔ v ∈ ops.vars f ∧ v ∉ Dict.keys ev) ∧
      ∀ x, L.den r x = L.den f (override (evPairs L ev) x) := by
  unfold CG.observe at h
  dsimp only at h
  split at h
  · exact L.red_subset hf ev (L.nodup hf) (fun _ => Iff.rfl) h
  · rename_i hk
    simp only [Except.ok.injEq] at h
    subst h
    have hk' : Dict.keys (subsetEvidence ev (ops.vars f)) = [] := by
      rw [← List.length_eq_zero_iff]; omega
    rw [keys_subsetEvidence ev (L.nodup hf), List.filter_eq_nil_iff] at hk'
    have hnone : ∀ v ∈ ops.vars f, Dict.get? ev v = none := by
      intro v hv
      simpa using hk' v hv
    refine ⟨hf, fun v => ?_, fun x => ?_⟩
    · constructor
      · intro hv; exact ⟨hv, Dict.get?_eq_none_iff.1 (hnone v hv)⟩
      · exact fun h => h.1
    · apply L.dep hf
      intro v hv
      rw [override_apply, hnone v hv]; rfl

theorem Laws.evidenceReduce (L : Laws ops D) {factors r : List F} (hok : ∀ f ∈ factors, L.Ok f)
    (ev : Dict Var V) (h : CG.evidenceReduce ops factors (some ev) = .ok r) :
    List.Forall₂ (fun f f' => L.Ok f' ∧ (∀ v, v ∈ ops.vars f' ↔ v ∈ ops.vars f ∧ v ∉ Dict.keys ev) ∧
      ∀ x, L.den f' x = L.den f (override (evPairs L ev) x)) factors r := by
  unfold CG.evidenceReduce at h
  dsimp only at h
  induction factors generalizing r with
  | nil =>
    have : r = [] := by simpa [pure, Except.pure] using h.symm
    subst this
    exact .nil
  | cons f fs ih =>
    rw [List.mapM_cons] at h
    obtain ⟨f', h1, h⟩ := py_bind_eq_ok.1 h
    obtain ⟨r', h2, h⟩ := py_bind_eq_ok.1 h
    have : r = f' :: r' := by simpa [pure, Except.pure] using h.symm
    subst this
    exact .cons (L.observe (hok f (by simp)) ev h1) (ih (fun a ha => hok a (by simp [ha])) h2)

theorem evidenceReduce_none {factors r : List F} (h : CG.evidenceReduce ops factors none = .ok r) :
    r = factors := by
  unfold CG.evidenceReduce at h
  dsimp only at h
  induction factors generalizing r with
  | nil => simpa [pure, Except.pure] using h.symm
  | cons f fs ih =>
    rw [List.mapM_cons] at h
    obtain ⟨f', h1, h⟩ := py_bind_eq_ok.1 h
    obtain ⟨r', h2, h⟩ := py_bind_eq_ok.1 h
    have h' : r = f' :: r' := by simpa [pure, Except.pure] using h.symm
    simp only [Except.ok.injEq] at h1
    rw [h', ih h2, h1]

/-- The assignment with the evidence substituted; `none` is no evidence. -/
def given (L : Laws ops D) (evidence : Option (Dict Var V)) (x : Var → D) : Var → D :=
  override (evPairs L (evidence.getD [])) x

/-- The cluster factors: lawful, free of evidence variables, with the right product. -/
theorem Laws.clusterFactors (L : Laws ops D) {factors fs : List F} (hok : ∀ f ∈ factors, L.Ok f)
    (evidence : Option (Dict Var V)) (h : CG.clusterFactors ops factors evidence = .ok fs) :
    (∀ f ∈ fs, L.Ok f) ∧
    (∀ f ∈ fs, ∃ f' ∈ factors, ∀ v, v ∈ ops.vars f ↔ v ∈ ops.vars f' ∧ v ∉ Dict.keys (evidence.getD [])) ∧
    ∀ x, (fs.map fun f => L.den f x).prod = (factors.map fun f => L.den f (given L evidence x)).prod := by
  unfold CG.clusterFactors at h
  obtain ⟨rs, h1, h2⟩ := py_bind_eq_ok.1 h
  clear h
  have key : List.Forall₂ (fun f f' => L.Ok f' ∧
      (∀ v, v ∈ ops.vars f' ↔ v ∈ ops.vars f ∧ v ∉ Dict.keys (evidence.getD [])) ∧
      ∀ x, L.den f' x = L.den f (given L evidence x)) factors rs := by
    cases evidence with
    | some ev => exact L.evidenceReduce hok ev h1
    | none =>
      rw [evidenceReduce_none h1, List.forall₂_same]
      intro f hf
      exact ⟨hok f hf, fun v => by simp [Dict.keys], fun x => rfl⟩
  clear h1
  have hrs : (∀ f ∈ rs, L.Ok f) ∧
      (∀ f ∈ rs, ∃ f' ∈ factors, ∀ v, v ∈ ops.vars f ↔ v ∈ ops.vars f' ∧ v ∉ Dict.keys (evidence.getD [])) ∧
      ∀ x, (rs.map fun f => L.den f x).prod = (factors.map fun f => L.den f (given L evidence x)).prod := by
    clear h2 hok
    induction key with
    | nil => simp
    | @cons f f' l l' hff _ ih =>
      obtain ⟨i1, i2, i3⟩ := ih
      refine ⟨?_, ?_, fun x => ?_⟩
      · intro a ha
        rcases List.mem_cons.1 ha with rfl | ha
        · exact hff.1
        · exact i1 a ha
      · intro a ha
        rcases List.mem_cons.1 ha with rfl | ha
        · exact ⟨f, by simp, hff.2.1⟩
        · obtain ⟨b, hb, hv⟩ := i2 a ha
          exact ⟨b, by simp [hb], hv⟩
      · simp only [List.map_cons, List.prod_cons, i3, hff.2.2]
  obtain ⟨a1, a2, a3⟩ := C43_absorb_product L rs fs hrs.1 h2
  refine ⟨a1, fun f hf => ?_, fun x => (a3 x).trans (hrs.2.2 x)⟩
  obtain ⟨f', hf', hv⟩ := a2 f hf
  obtain ⟨f'', hf'', hv'⟩ := hrs.2.1 f' hf'
  exact ⟨f'', hf'', fun v => (hv v).trans (hv' v)⟩

/-! ### The belief invariant -/

/-- The sepset of a path. -/
def sepOf (g0 : Graph F V G n m) (q : Fin m) : List Var := (sepset g0 (g0.path q).snd (g0.path q).rcv).getD []

/-- The value at `x` of the last message passed along `q`; 1 if there was none. -/
noncomputable def mval (L : Laws ops D) (tr : List (Fin m × F)) (q : Fin m) (x : Var → D) : ℝ :=
  match lastMsg tr q with
  | none => 1
  | some f => L.den f x

/-- The paths into cluster `i`. -/
def incoming (g0 : Graph F V G n m) (i : Fin n) : Finset (Fin m) :=
  Finset.univ.filter fun q => (g0.path q).rcv = i

/-- What beliefs and messages denote after an execution. -/
structure BelInv (L : Laws ops D) (g0 : Graph F V G n m) (tr : List (Fin m × F)) (g : Graph F V G n m) : Prop where
  ok0 : ∀ i, L.Ok (g0.cl i).factor
  ok : ∀ i, L.Ok (g.cl i).factor
  vars : ∀ i v, v ∈ ops.vars (g.cl i).factor ↔ v ∈ scope ops g0 i
  msg : ∀ q f, lastMsg tr q = some f → L.Ok f ∧ ∀ v, v ∈ ops.vars f ↔ v ∈ sepOf g0 q
  belief : ∀ i x, L.den (g.cl i).factor x = L.den (g0.cl i).factor x * ∏ q ∈ incoming g0 i, mval L tr q x
  supp : ∀ q x, mval L tr q x = 0 → ∀ y, (∀ v ∈ sepOf g0 q, y v = x v) →
    L.den (g.cl (g0.path q).snd).factor (override (evPairs L g0.special) y) = 0
  pos : ∀ x, (∀ i, L.den (g0.cl i).factor (override (evPairs L g0.special) x) ≠ 0) → ∀ q, mval L tr q x ≠ 0

theorem Wired.rev {evVars : List Var} {g0 : Graph F V G n m} (w : Wired ops evVars g0) (q : Fin m) :
    ∃ r, (g0.path r).snd = (g0.path q).rcv ∧ (g0.path r).rcv = (g0.path q).snd ∧ sepOf g0 r = sepOf g0 q := by
  obtain ⟨s, hs⟩ := (w.pathSep _ _).1 ⟨q, rfl, rfl⟩
  rw [w.sepSymm] at hs
  obtain ⟨r, h1, h2⟩ := (w.pathSep _ _).2 ⟨s, hs⟩
  refine ⟨r, h1, h2, ?_⟩
  unfold sepOf
  rw [h1, h2, w.sepSymm]

theorem Wired.sepOf_eq {evVars : List Var} {g0 : Graph F V G n m} (w : Wired ops evVars g0) (q : Fin m) :
    sepset g0 (g0.path q).snd (g0.path q).rcv = some (sepOf g0 q) := by
  obtain ⟨s, hs⟩ := (w.pathSep _ _).1 ⟨q, rfl, rfl⟩
  unfold sepOf
  rw [hs]; rfl

theorem Wired.sepOf_mem {evVars : List Var} {g0 : Graph F V G n m} (w : Wired ops evVars g0) (q : Fin m) {v : Var}
    (hv : v ∈ sepOf g0 q) : v ∈ scope ops g0 (g0.path q).snd ∧ v ∈ scope ops g0 (g0.path q).rcv ∧
      v ∉ Dict.keys g0.special := by
  obtain ⟨h1, h2, h3⟩ := (w.sepOk _ _ _ (w.sepOf_eq q)).2 v hv
  exact ⟨h1, h2, fun h => h3 (w.specialEv v h)⟩

theorem override_keep (L : Laws ops D) {ev : Dict Var V} {v : Var} (h : v ∉ Dict.keys ev) (x : Var → D) :
    override (evPairs L ev) x v = x v := by
  rw [override_apply, Dict.get?_eq_none_iff.2 h]; rfl

theorem mval_congr (L : Laws ops D) {g0 : Graph F V G n m} {tr : List (Fin m × F)} {q : Fin m}
    (hm : ∀ f, lastMsg tr q = some f → L.Ok f ∧ ∀ v, v ∈ ops.vars f ↔ v ∈ sepOf g0 q) {x y : Var → D}
    (h : ∀ v ∈ sepOf g0 q, x v = y v) : mval L tr q x = mval L tr q y := by
  unfold mval
  cases hl : lastMsg tr q with
  | none => rfl
  | some f =>
    obtain ⟨h1, h2⟩ := hm f hl
    exact L.dep h1 _ _ fun v hv => h v ((h2 v).1 hv)

/-- The next message of a path: the sender's belief with the special evidence substituted (`red`),
marginalised onto the sepset (`M`), divided by the last message received along the reverse path `r`. -/
theorem BelInv.next' [Zero G] {L : Laws ops D} {evVars : List Var} {g0 g : Graph F V G n m}
    {tr : List (Fin m × F)} (w : Wired ops evVars g0) (inv : RunInv ops g0 tr g) (b : BelInv L g0 tr g)
    {q r : Fin m} (hr1 : (g0.path r).snd = (g0.path q).rcv) (hr2 : (g0.path r).rcv = (g0.path q).snd)
    (hr3 : sepOf g0 r = sepOf g0 q) :
    L.Ok (g.path q).next.factor ∧ (∀ v, v ∈ ops.vars (g.path q).next.factor ↔ v ∈ sepOf g0 q) ∧
    ∃ red M, L.Ok red ∧ (∀ v, v ∈ ops.vars red ↔ v ∈ scope ops g0 (g0.path q).snd ∧ v ∉ Dict.keys g0.special) ∧
      (∀ x, L.den red x = L.den (g.cl (g0.path q).snd).factor (override (evPairs L g0.special) x)) ∧
      ops.marginalize red (sepOf g0 q) = .ok M ∧
      (∀ x, mval L tr r x = 0 → L.den M x = 0) ∧
      (∀ x, L.den (g.path q).next.factor x = L.den M x / mval L tr r x) ∧
      specialReduced ops (g.cl (g0.path q).snd) = .ok red := by
  have hmk := inv.next q
  unfold makeMessage at hmk
  obtain ⟨sep, h1, hmk⟩ := py_bind_eq_ok.1 hmk
  obtain ⟨red, h2, hmk⟩ := py_bind_eq_ok.1 hmk
  obtain ⟨M, h3, hmk⟩ := py_bind_eq_ok.1 hmk
  obtain ⟨f, h4, hmk⟩ := py_bind_eq_ok.1 hmk
  simp only [Except.ok.injEq] at hmk
  have hf : (g.path q).next.factor = f := by rw [← hmk]
  rw [hf]
  have hsep : sep = sepOf g0 q := by
    have h5 := w.sepOf_eq q
    unfold sepset at h5
    rw [inv.sepsets] at h1
    unfold Dict.getItem at h1
    rw [h5] at h1
    simpa using h1.symm
  subst hsep
  have hred : L.Ok red ∧ (∀ v, v ∈ ops.vars red ↔
        v ∈ ops.vars (g.cl (g0.path q).snd).factor ∧ v ∉ Dict.keys g0.special) ∧
      ∀ x, L.den red x = L.den (g.cl (g0.path q).snd).factor (override (evPairs L g0.special) x) := by
    have h2' := h2
    unfold specialReduced at h2'
    rw [inv.cspecial, w.special] at h2'
    exact L.red_subset (b.ok _) g0.special (L.nodup (b.ok0 _)) (fun v => (b.vars _ v).symm) h2'
  obtain ⟨hredOk, hredV, hredD⟩ := hred
  have hredV' : ∀ v, v ∈ ops.vars red ↔ v ∈ scope ops g0 (g0.path q).snd ∧ v ∉ Dict.keys g0.special :=
    fun v => by rw [hredV, b.vars]
  obtain ⟨hM, hMv, hMz⟩ := L.marg hredOk (w.sepOk _ _ _ (w.sepOf_eq q)).1
    (fun v hv => (hredV' v).2 ⟨(w.sepOf_mem q hv).1, (w.sepOf_mem q hv).2.2⟩) h3
  have hz : ∀ x, mval L tr r x = 0 → L.den M x = 0 := by
    intro x hx
    rw [hMz]
    intro y hy
    rw [hredD, b.belief]
    have hmem : r ∈ incoming g0 (g0.path q).snd := by simp [incoming, hr2]
    have : mval L tr r (override (evPairs L g0.special) y) = 0 := by
      rw [← hx]
      refine mval_congr L (b.msg r) fun v hv => ?_
      rw [hr3] at hv
      rw [override_keep L (w.sepOf_mem q hv).2.2, hy v hv]
    rw [Finset.prod_eq_zero hmem this, mul_zero]
  have hrec := inv.received r
  rw [hr1, hr2] at hrec
  unfold cancelReceived at h4
  rw [hrec] at h4
  suffices h : L.Ok f ∧ (∀ v, v ∈ ops.vars f ↔ v ∈ sepOf g0 q) ∧ ∀ x, L.den f x = L.den M x / mval L tr r x from
    ⟨h.1, h.2.1, red, M, hredOk, hredV', hredD, h3, hz, h.2.2, h2⟩
  cases hl : lastMsg tr r with
  | none =>
    rw [hl] at h4
    simp only [Except.ok.injEq] at h4
    subst h4
    refine ⟨hM, hMv, fun x => ?_⟩
    unfold mval
    rw [hl]; simp
  | some old =>
    rw [hl] at h4
    obtain ⟨o1, o2⟩ := b.msg r old hl
    have hmv : ∀ x, mval L tr r x = L.den old x := fun x => by unfold mval; rw [hl]
    obtain ⟨c1, c2, c3⟩ := L.cancel hM o1 (fun v hv => (hMv v).2 (hr3 ▸ (o2 v).1 hv))
      (fun x hx => hz x ((hmv x).trans hx)) h4
    exact ⟨c1, fun v => (c2 v).trans (hMv v), fun x => by rw [c3, hmv]⟩

theorem BelInv.next [Zero G] {L : Laws ops D} {evVars : List Var} {g0 g : Graph F V G n m}
    {tr : List (Fin m × F)} (w : Wired ops evVars g0) (inv : RunInv ops g0 tr g) (b : BelInv L g0 tr g)
    {q r : Fin m} (hr1 : (g0.path r).snd = (g0.path q).rcv) (hr2 : (g0.path r).rcv = (g0.path q).snd)
    (hr3 : sepOf g0 r = sepOf g0 q) :
    L.Ok (g.path q).next.factor ∧ (∀ v, v ∈ ops.vars (g.path q).next.factor ↔ v ∈ sepOf g0 q) ∧
    ∃ red M, L.Ok red ∧ (∀ v, v ∈ ops.vars red ↔ v ∈ scope ops g0 (g0.path q).snd ∧ v ∉ Dict.keys g0.special) ∧
      (∀ x, L.den red x = L.den (g.cl (g0.path q).snd).factor (override (evPairs L g0.special) x)) ∧
      ops.marginalize red (sepOf g0 q) = .ok M ∧
      (∀ x, mval L tr r x = 0 → L.den M x = 0) ∧
      ∀ x, L.den (g.path q).next.factor x = L.den M x / mval L tr r x := by
  obtain ⟨h1, h2, red, M, h3, h4, h5, h6, h7, h8, -⟩ := b.next' w inv hr1 hr2 hr3
  exact ⟨h1, h2, red, M, h3, h4, h5, h6, h7, h8⟩

/-- A message is zero only where the sender's belief, with the evidence substituted, is zero throughout. -/
theorem BelInv.next_zero [Zero G] {L : Laws ops D} {evVars : List Var} {g0 g : Graph F V G n m}
    {tr : List (Fin m × F)} (w : Wired ops evVars g0) (inv : RunInv ops g0 tr g) (b : BelInv L g0 tr g)
    (q : Fin m) (x : Var → D) : L.den (g.path q).next.factor x = 0 ↔
      ∀ y, (∀ v ∈ sepOf g0 q, y v = x v) →
        L.den (g.cl (g0.path q).snd).factor (override (evPairs L g0.special) y) = 0 := by
  obtain ⟨r, hr1, hr2, hr3⟩ := w.rev q
  obtain ⟨_, _, red, M, h1, h2, h3, h4, h5, h6⟩ := b.next w inv hr1 hr2 hr3
  obtain ⟨_, _, hz⟩ := L.marg h1 (w.sepOk _ _ _ (w.sepOf_eq q)).1
    (fun v hv => (h2 v).2 ⟨(w.sepOf_mem q hv).1, (w.sepOf_mem q hv).2.2⟩) h4
  have : L.den (g.path q).next.factor x = 0 ↔ L.den M x = 0 := by
    rw [h6, div_eq_zero_iff]
    exact ⟨fun h => h.elim id (h5 x), Or.inl⟩
  rw [this, hz]
  simp only [h3]

theorem BelInv.start {L : Laws ops D} {g0 : Graph F V G n m} (hok : ∀ i, L.Ok (g0.cl i).factor) :
    BelInv L g0 [] g0 := by
  refine ⟨hok, hok, fun _ _ => Iff.rfl, fun q f h => by simp at h, fun i x => ?_, fun q x h => ?_, fun x _ q => ?_⟩
  · simp [mval]
  · simp [mval] at h
  · simp [mval]

theorem mval_snoc (L : Laws ops D) (tr : List (Fin m × F)) (q r : Fin m) (f : F) (x : Var → D) :
    mval L (tr ++ [(q, f)]) r x = if q = r then L.den f x else mval L tr r x := by
  unfold mval
  rw [lastMsg_snoc]
  by_cases h : q = r <;> simp [h]

/-- Delivering a message: only the receiver's cluster changes. -/
theorem BelInv.deliver [Zero G] {L : Laws ops D} {evVars : List Var} {g0 g g' : Graph F V G n m}
    {tr : List (Fin m × F)} (w : Wired ops evVars g0) (inv : RunInv ops g0 tr g) (b : BelInv L g0 tr g)
    {q : Fin m} {c : Cl F V} (hc : receive ops (g.cl (g.path q).rcv) (g.path q).next = .ok c)
    (e1 : g'.cl = Function.update g.cl (g.path q).rcv c) :
    BelInv L g0 (tr ++ [(q, (g.path q).next.factor)]) g' := by
  obtain ⟨_, p, f', hp, hf', hc'⟩ := receive_ok hc
  have hnz := b.next_zero w inv q
  obtain ⟨r, hr1, hr2, hr3⟩ := w.rev q
  obtain ⟨n1, n2, _⟩ := b.next w inv hr1 hr2 hr3
  have hsend : (g.path q).next.snd = (g0.cl (g0.path q).snd).id := by
    rw [(makeMessage_ids (inv.next q)).1]; exact inv.id _
  set f := (g.path q).next.factor with hf
  rw [inv.rcv] at hp hf' e1 hc
  have hcf : c.factor = f' := by rw [hc']
  have hne := w.ne q
  set j := (g0.path q).rcv with hj
  have hqj : q ∈ incoming g0 j := by simp [incoming, hj]
  obtain ⟨p1, p2, p3⟩ := L.mul (b.ok j) n1 hp
  have hsub : ∀ v ∈ sepOf g0 q, v ∈ ops.vars (g.cl j).factor := fun v hv => (b.vars j v).2 (w.sepOf_mem q hv).2.1
  have pv : ∀ v, v ∈ ops.vars p ↔ v ∈ scope ops g0 j := by
    intro v
    rw [p2, ← b.vars j]
    exact ⟨fun h => h.elim id fun h => hsub v ((n2 v).1 h), Or.inl⟩
  have hb0 : ∀ x, mval L tr q x = 0 → L.den (g.cl j).factor x = 0 := by
    intro x hx
    rw [b.belief, Finset.prod_eq_zero hqj hx, mul_zero]
  have hold0 : ∀ x, mval L tr q x = 0 → L.den f x = 0 := fun x hx => (hnz x).2 (b.supp q x hx)
  -- the new factor of the receiver
  have key : L.Ok f' ∧ (∀ v, v ∈ ops.vars f' ↔ v ∈ scope ops g0 j) ∧
      ∀ x, L.den f' x = L.den (g.cl j).factor x * L.den f x / mval L tr q x := by
    unfold cancelReceived at hf'
    rw [hsend, hj, inv.received q] at hf'
    cases hl : lastMsg tr q with
    | none =>
      rw [hl] at hf'
      simp only [Except.ok.injEq] at hf'
      subst hf'
      refine ⟨p1, pv, fun x => ?_⟩
      rw [p3]; unfold mval; rw [hl]; simp
    | some old =>
      rw [hl] at hf'
      have hmv : ∀ x, mval L tr q x = L.den old x := fun x => by unfold mval; rw [hl]
      obtain ⟨o1, o2⟩ := b.msg q old hl
      obtain ⟨c1, c2, c3⟩ := L.cancel p1 o1
        (fun v hv => (pv v).2 (w.sepOf_mem q ((o2 v).1 hv)).2.1)
        (fun x hx => by rw [p3, hb0 x ((hmv x).trans hx), zero_mul]) hf'
      exact ⟨c1, fun v => (c2 v).trans (pv v), fun x => by rw [c3, p3, hmv]⟩
  obtain ⟨k1, k2, k3⟩ := key
  have cl_ne : ∀ i, i ≠ j → g'.cl i = g.cl i := fun i hi => by rw [e1, Function.update_of_ne hi]
  have cl_j : (g'.cl j).factor = f' := by rw [e1, Function.update_self, hcf]
  have shrink : ∀ i x, L.den (g.cl i).factor x = 0 → L.den (g'.cl i).factor x = 0 := by
    intro i x hx
    by_cases hi : i = j
    · subst hi; rw [cl_j, k3, hx, zero_mul, zero_div]
    · rw [cl_ne i hi]; exact hx
  refine ⟨b.ok0, ?_, ?_, ?_, ?_, ?_, ?_⟩
  · intro i
    by_cases hi : i = j
    · subst hi; rw [cl_j]; exact k1
    · rw [cl_ne i hi]; exact b.ok i
  · intro i v
    by_cases hi : i = j
    · rw [hi, cl_j]; exact k2 v
    · rw [cl_ne i hi]; exact b.vars i v
  · intro r' f'' hl
    rw [lastMsg_snoc] at hl
    dsimp only at hl
    split at hl
    · rename_i hqr
      simp only [Option.some.injEq] at hl
      subst hl; subst hqr
      exact ⟨n1, n2⟩
    · exact b.msg r' f'' hl
  · intro i x
    by_cases hi : i = j
    · subst hi
      rw [cl_j, k3, b.belief, ← Finset.mul_prod_erase _ _ hqj, ← Finset.mul_prod_erase _ _ hqj,
        mval_snoc, if_pos rfl]
      have hrest : ∏ r' ∈ (incoming g0 j).erase q, mval L (tr ++ [(q, f)]) r' x =
          ∏ r' ∈ (incoming g0 j).erase q, mval L tr r' x := by
        refine Finset.prod_congr rfl fun r' hr' => ?_
        rw [mval_snoc, if_neg (Finset.ne_of_mem_erase hr').symm]
      rw [hrest]
      by_cases h0 : mval L tr q x = 0
      · rw [h0, hold0 x h0]; simp
      · field_simp
    · rw [cl_ne i hi, b.belief]
      congr 1
      refine Finset.prod_congr rfl fun r' hr' => ?_
      rw [mval_snoc, if_neg]
      rintro rfl
      exact hi (Finset.mem_filter.1 hr').2.symm
  · intro r' x hx y hy
    rw [mval_snoc] at hx
    split at hx
    · rename_i hqr
      subst hqr
      exact shrink _ _ ((hnz x).1 hx y hy)
    · exact shrink _ _ (b.supp r' x hx y hy)
  · intro x hx r'
    rw [mval_snoc]
    split
    · intro h0
      have := (hnz x).1 h0 x (fun _ _ => rfl)
      rw [b.belief, mul_eq_zero] at this
      rcases this with h1 | h1
      · exact hx _ h1
      · rw [Finset.prod_eq_zero_iff] at h1
        obtain ⟨s, _, hs⟩ := h1
        refine b.pos x hx s ?_
        rw [← hs]
        refine (mval_congr L (b.msg s) fun v hv => ?_).symm
        exact override_keep L (w.sepOf_mem s hv).2.2 x
    · exact b.pos x hx r'

theorem BelInv.pass [Zero G] {L : Laws ops D} {evVars : List Var} {g0 g g' : Graph F V G n m}
    {tr : List (Fin m × F)} (w : Wired ops evVars g0) (inv : RunInv ops g0 tr g) (b : BelInv L g0 tr g)
    {q : Fin m} (h : pass ops g q = .ok g') : BelInv L g0 (tr ++ [(q, (g.path q).next.factor)]) g' := by
  obtain ⟨c, hc, e1, _⟩ := pass_ok (fun i => by rw [inv.out]; exact w.outNodup i) h
  exact b.deliver w inv hc e1

theorem Run.bel [Zero G] {L : Laws ops D} {evVars : List Var} {g0 g : Graph F V G n m}
    {tr : List (Fin m × F)} (w : Wired ops evVars g0) (hok : ∀ i, L.Ok (g0.cl i).factor)
    (h : Run ops g0 tr g) : BelInv L g0 tr g := by
  induction h with
  | start => exact BelInv.start hok
  | pass q hr hp ih => exact ih.pass w (hr.inv w) hp
  | admin _ hs ih =>
    obtain ⟨h1, _⟩ := hs
    exact ⟨ih.ok0, by rw [h1]; exact ih.ok, by rw [h1]; exact ih.vars, ih.msg, by rw [h1]; exact ih.belief,
      by rw [h1]; exact ih.supp, ih.pos⟩

/-- The initial cluster factors are those computed by the constructor. -/
theorem new_factors {hs : HashSeed} {factors : List F} {evidence : Option (Dict Var V)}
    {special : Dict Var V} {a : Any F V G} (h : new hs ops factors evidence special = .ok a) :
    ∃ fs, clusterFactors ops factors evidence = .ok fs ∧ List.ofFn (fun i => (a.graph.cl i).factor) = fs := by
  obtain ⟨fs, h1, b, inv, _, rfl⟩ := new_inv h
  refine ⟨fs, h1, ?_⟩
  have h2 : ∀ i, ((b.graph special).cl i).factor = ((mkClusters ops special fs)[i]).factor := inv.factor
  have h3 : (mkClusters ops special fs).map (fun c => c.factor) = fs := by
    unfold mkClusters
    rw [List.map_map]
    conv_rhs => rw [← List.zipIdx_map_fst 0 fs]
    rfl
  conv_rhs => rw [← h3]
  apply List.ext_getElem
  · simp
  · intro i hi hi'
    rw [List.getElem_ofFn, List.getElem_map]
    exact h2 _

end Verif.CG
