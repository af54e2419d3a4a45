import Verif.FactProps2
import Verif.Fubini
import Verif.GaussKl

/-!
# Helper lemmas for marginals of factorised factors
-/

namespace Verif.Fact
open Matrix Gauss Spec MeasureTheory

/-! ### Curvature -/

/-- The mixed second difference of `L` at zero. For a quadratic function with precision `K` it is `- uᵀ K w`. -/
def curv (L : (Var → ℝ) → ℝ) (u w : Var → ℝ) : ℝ := L (u + w) - L u - L w + L 0

/-- The function is strictly concave in the directions that change only variables in `S`. -/
def PosOn (L : (Var → ℝ) → ℝ) (S : Var → Prop) : Prop :=
  ∀ z : Var → ℝ, z ≠ 0 → (∀ v, ¬ S v → z v = 0) → L z + L (-z) < 2 * L 0

/-- Not nearly constant: some entry of the precision exceeds numpy's absolute tolerance, or the function is strictly
concave. -/
def NotFlat (i : Item) : Prop :=
  (∃ v ∈ i.1, ∃ w ∈ i.1, 1 / 100000000 < |curv i.2 (Pi.single v 1) (Pi.single w 1)|) ∨ PosOn i.2 (· ∈ i.1)

/-- The product of a list of items. -/
noncomputable def prodItem (g : List Item) : Item := (g.flatMap Prod.fst, total g)

variable {n : ℕ}

theorem vecAt_add {vars : List Var} (hl : vars.length = n) (x y : Var → ℝ) :
    vecAt vars hl (x + y) = vecAt vars hl x + vecAt vars hl y := rfl

theorem vecAt_neg {vars : List Var} (hl : vars.length = n) (x : Var → ℝ) :
    vecAt vars hl (-x) = -vecAt vars hl x := rfl

theorem vecAt_zero {vars : List Var} (hl : vars.length = n) : vecAt vars hl (0 : Var → ℝ) = 0 := rfl

theorem curv_logOf {a : Gauss n} (hg : Good a) (u w : Var → ℝ) :
    curv (logOf a hg.len) u w = -(vecAt a.vars hg.len u ⬝ᵥ (canOf a).prec *ᵥ vecAt a.vars hg.len w) := by
  unfold curv logOf evalCan
  simp only [vecAt_add, vecAt_zero]
  have hsym : vecAt a.vars hg.len w ⬝ᵥ (canOf a).prec *ᵥ vecAt a.vars hg.len u =
      vecAt a.vars hg.len u ⬝ᵥ (canOf a).prec *ᵥ vecAt a.vars hg.len w := by
    rw [dotProduct_mulVec, ← mulVec_transpose, hg.symm.eq, dotProduct_comm]
  simp only [mulVec_add, dotProduct_add, add_dotProduct, zero_dotProduct, hsym]
  ring

theorem pos_logOf {a : Gauss n} (hg : Good a) {S : Var → Prop} (h : PosOn (logOf a hg.len) S) {y : Fin n → ℝ} (hy : y ≠ 0)
    (hz : ∀ (i : Fin n) v, a.vars[i.1]? = some v → ¬ S v → y i = 0) : 0 < y ⬝ᵥ (canOf a).prec *ᵥ y := by
  have hv : vecAt a.vars hg.len (entryV y a.vars hg.len) = y := by
    funext i
    exact entryV_get hg.nodup hg.len y i
  have h1 := h (entryV y a.vars hg.len) (fun e => hy (by rw [← hv, e]; rfl)) (fun v hS => by
    unfold entryV
    split
    · rename_i hm
      refine hz _ v ?_ hS
      simp [List.getElem?_eq_getElem (List.idxOf_lt_length_of_mem hm)]
    · rfl)
  unfold logOf evalCan at h1
  simp only [vecAt_neg, vecAt_zero, hv, mulVec_neg, dotProduct_neg, neg_dotProduct, zero_dotProduct, neg_neg] at h1
  linarith

theorem posDef_logOf {a : Gauss n} (hg : Good a) (h : PosOn (logOf a hg.len) (· ∈ a.vars)) : (canOf a).prec.PosDef := by
  refine PosDef.of_dotProduct_mulVec_pos ?_ fun y hy => ?_
  · have := hg.symm
    rw [IsHermitian, conjTranspose_eq_transpose_of_trivial]
    exact this
  · have := pos_logOf hg h hy fun i v hi hv => absurd (List.mem_of_getElem? hi) hv
    simpa using this

/-- A factor that is not nearly constant is not flagged. -/
theorem notFlat_logOf {a : Gauss n} (hg : Good a) {vs : List Var} (hvs : ∀ v, v ∈ a.vars ↔ v ∈ vs)
    (h : NotFlat (vs, logOf a hg.len)) : vacParams (canOf a).prec = false := by
  rcases h with ⟨v, hv, w, hw, h⟩ | h
  · unfold vacParams
    simp only [decide_eq_false_iff_not]
    rintro ⟨h1, -⟩
    dsimp only at h hv hw
    rw [curv_logOf hg, abs_neg] at h
    have single : ∀ v, v ∈ a.vars → ∃ i : Fin n, vecAt a.vars hg.len (Pi.single v (1 : ℝ)) = Pi.single i 1 := by
      intro v hv
      refine ⟨⟨a.vars.idxOf v, (List.idxOf_lt_length_of_mem hv).trans_eq hg.len⟩, funext fun j => ?_⟩
      unfold vecAt
      rw [Pi.single_apply, Pi.single_apply]
      refine if_congr ?_ rfl rfl
      rw [Fin.ext_iff]
      constructor
      · rintro rfl
        exact (hg.nodup.idxOf_getElem _ _).symm
      · intro e
        simp [e]
    obtain ⟨i, hi⟩ := single v ((hvs v).2 hv)
    obtain ⟨j, hj⟩ := single w ((hvs w).2 hw)
    rw [hi, hj] at h
    simp at h
    have := h1 i j
    norm_num at this h
    linarith
  · refine vacParams_posDef (posDef_logOf hg fun z hz hS => h z hz fun v hv => hS v fun hm => hv ((hvs v).1 hm))

/-! ### The flag -/

/-- The flag of the Gaussian is only set if its precision is nearly zero. -/
def Honest (f : AnyG) : Prop := f.2.vac = true → vacParams (canOf f.2).prec = true

theorem copyG_honest {f k : AnyG} (h : Mix.copyG f = .ok k) : Honest k := by
  unfold Mix.copyG at h
  obtain ⟨k', hk, h⟩ := py_bind_eq_ok.1 h
  cases h
  unfold Honest
  dsimp only
  unfold Gauss.copy at hk
  split at hk
  · obtain ⟨b, hb, h⟩ := py_bind_eq_ok.1 hk
    obtain ⟨_, _, rfl⟩ := mkCov_eq_ok hb
    cases h
    simp
  · obtain ⟨_, _, rfl⟩ := mkCov_eq_ok hk
    simp
  · obtain ⟨_, _, rfl⟩ := mkCan_eq_ok hk
    exact fun h => h
  · cases hk

theorem multiply_honest {f g : AnyG} (hf : Good f.2) (hg : Good g.2) {f' g' r} (h : f.2.multiply g.2 = .ok (f', g', r)) :
    Honest ⟨_, r⟩ := by
  unfold Gauss.multiply at h
  rw [absorbOrCancel_valid _ hf.toValid hg.toValid] at h
  cases h
  exact fun h => h

/-- As `Den`, with an honest flag. -/
structure DenH (f : AnyG) (i : Item) : Prop extends Den f i where
  honest : Honest f

theorem multiply_denH {f g : AnyG} {i j : Item} (hf : DenH f i) (hg : DenH g j) :
    ∃ f' g' r, f.2.multiply g.2 = .ok (f', g', r) ∧ DenH ⟨_, r⟩ (i.1 ++ j.1, fun x => i.2 x + j.2 x) := by
  obtain ⟨f', g', r, h1, -, -, h2⟩ := multiply_den hf.toDen hg.toDen
  exact ⟨f', g', r, h1, h2, multiply_honest hf.good hg.good h1⟩

theorem DenH.congr {f : AnyG} {i j : Item} (h : DenH f i) (hv : ∀ v, v ∈ i.1 ↔ v ∈ j.1) (hL : ∀ x, i.2 x = j.2 x) : DenH f j :=
  ⟨h.toDen.congr hv hL, h.honest⟩

/-! ### Merging -/

/-- Two items share a variable of `out`. -/
def Share (out : List Var) (i j : Item) : Prop := ∃ v ∈ out, v ∈ i.1 ∧ v ∈ j.1

theorem share_iff {out : List Var} {f g : AnyG} {i j : Item} (hf : Den f i) (hg : Den g j) :
    (∃ v ∈ inScope out f, v ∈ inScope out g) ↔ Share out i j := by
  unfold inScope Share
  simp only [List.mem_filter, decide_eq_true_eq, hf.vars, hg.vars]
  constructor
  · rintro ⟨v, ⟨h1, h2⟩, h3, -⟩; exact ⟨v, h2, h1, h3⟩
  · rintro ⟨v, h2, h1, h3⟩; exact ⟨v, ⟨h1, h2⟩, h3, h2⟩

open Classical in
theorem mergeInner_den {out : List Var} {f : AnyG} {i : Item} (hf : Den f i) {R : List (ℕ × AnyG × Item)}
    (hR : ∀ r ∈ R, DenH r.2.1 r.2.2) (hn : (R.map Prod.fst).Nodup) {m : AnyG} {j : Item} (hm : DenH m j) (done : List ℕ) :
    ∃ m' done', mergeInner out (inScope out f) m done (R.map fun r => (r.1, r.2.1)) = .ok (m', done') ∧
      DenH m' (j.1 ++ ((R.filter fun r => r.1 ∉ done ∧ Share out i r.2.2).map fun r => r.2.2).flatMap Prod.fst,
        fun x => j.2 x + total ((R.filter fun r => r.1 ∉ done ∧ Share out i r.2.2).map fun r => r.2.2) x) ∧
      ∀ k, k ∈ done' ↔ k ∈ done ∨ ∃ r ∈ R, r.1 = k ∧ Share out i r.2.2 := by
  induction R generalizing m j done with
  | nil => exact ⟨m, done, rfl, hm.congr (by simp) (by simp [total]), by simp⟩
  | cons r R ih =>
    obtain ⟨k, g, i'⟩ := r
    have hg := hR _ (List.mem_cons_self ..)
    dsimp only at hg
    have hR' : ∀ r ∈ R, DenH r.2.1 r.2.2 := fun r hr => hR r (List.mem_cons_of_mem _ hr)
    rw [List.map_cons, List.nodup_cons] at hn
    rw [List.map_cons, mergeInner]
    have hsh := share_iff (out := out) hf hg.toDen
    by_cases hk : k ∉ done ∧ Share out i i'
    · rw [if_pos ⟨hk.1, hsh.2 hk.2⟩]
      obtain ⟨_, _, r, e1, d1⟩ := multiply_denH hm hg
      rw [e1]
      dsimp only [bind, Except.bind]
      obtain ⟨m', done', e2, d2, hd⟩ := ih hR' hn.2 d1 (done ++ [k])
      have hfil : (R.filter fun r => r.1 ∉ done ++ [k] ∧ Share out i r.2.2) =
          R.filter fun r => r.1 ∉ done ∧ Share out i r.2.2 := by
        refine List.filter_congr fun r hr => ?_
        have : r.1 ≠ k := fun h => hn.1 (List.mem_map.2 ⟨r, hr, h⟩)
        simp [this]
      rw [hfil] at d2
      refine ⟨m', done', e2, ?_, fun l => ?_⟩
      · rw [List.filter_cons_of_pos (by simpa using hk)]
        refine d2.congr (by simp) fun x => ?_
        simp [total, add_assoc]
      · rw [hd]
        simp only [List.mem_append, List.mem_singleton, List.exists_mem_cons_iff]
        constructor
        · rintro ((h | rfl) | h)
          · exact .inl h
          · exact .inr (.inl ⟨rfl, hk.2⟩)
          · exact .inr (.inr h)
        · rintro (h | ⟨rfl, -⟩ | h)
          · exact .inl (.inl h)
          · exact .inl (.inr rfl)
          · exact .inr h
    · rw [if_neg fun h => hk ⟨h.1, hsh.1 h.2⟩]
      obtain ⟨m', done', e2, d2, hd⟩ := ih hR' hn.2 hm done
      refine ⟨m', done', e2, ?_, fun l => ?_⟩
      · rw [List.filter_cons_of_neg (by simpa using hk)]
        exact d2
      · rw [hd]
        simp only [List.exists_mem_cons_iff]
        constructor
        · rintro (h | h)
          · exact .inl h
          · exact .inr (.inr h)
        · rintro (h | ⟨rfl, h⟩ | h)
          · exact .inl h
          · by_cases hkd : k ∈ done
            · exact .inl hkd
            · exact absurd ⟨hkd, h⟩ hk
          · exact .inr h

/-- Two groups of items share no variable of `out`. -/
def Apart (out : List Var) (i j : Item) : Prop := ¬ Share out i j

open Classical in
theorem mergeOuter_den {out : List Var} {R : List (ℕ × AnyG × Item)} (hR : ∀ r ∈ R, DenH r.2.1 r.2.2)
    (hn : (R.map Prod.fst).Nodup)
    (hT : ∀ r ∈ R, ∀ s ∈ R, ∀ t ∈ R, Share out r.2.2 s.2.2 → Share out s.2.2 t.2.2 → Share out r.2.2 t.2.2) (done : List ℕ) :
    ∃ (ms : List AnyG) (gss : List (List Item)), mergeOuter out done (R.map fun r => (r.1, r.2.1)) = .ok ms ∧
      List.Forall₂ DenH ms (gss.map prodItem) ∧ (∀ g ∈ gss, g ≠ [] ∧ g.Sublist (R.map fun r => r.2.2)) ∧
      gss.flatten.Perm ((R.filter fun r => r.1 ∉ done).map fun r => r.2.2) ∧
      (gss.map prodItem).Pairwise (Apart out) := by
  induction R generalizing done with
  | nil => exact ⟨[], [], rfl, .nil, by simp, by simp, .nil⟩
  | cons r R ih =>
    obtain ⟨k, f, i⟩ := r
    have hf := hR _ (List.mem_cons_self ..)
    dsimp only at hf
    have hR' : ∀ r ∈ R, DenH r.2.1 r.2.2 := fun r hr => hR r (List.mem_cons_of_mem _ hr)
    have hT' : ∀ r ∈ R, ∀ s ∈ R, ∀ t ∈ R, Share out r.2.2 s.2.2 → Share out s.2.2 t.2.2 → Share out r.2.2 t.2.2 :=
      fun r hr s hs t ht => hT r (List.mem_cons_of_mem _ hr) s (List.mem_cons_of_mem _ hs) t (List.mem_cons_of_mem _ ht)
    rw [List.map_cons, List.nodup_cons] at hn
    rw [List.map_cons, mergeOuter]
    by_cases hk : k ∈ done
    · rw [if_pos hk]
      obtain ⟨ms, gss, e, h1, h2, h3, h4⟩ := ih hR' hn.2 hT' done
      refine ⟨ms, gss, e, h1, fun g hg => ⟨(h2 g hg).1, (h2 g hg).2.cons _⟩, ?_, h4⟩
      rw [List.filter_cons_of_neg (by simpa using hk)]
      exact h3
    · rw [if_neg hk]
      obtain ⟨m, done', e1, d1, hd⟩ := mergeInner_den hf.toDen hR' hn.2 hf done
      obtain ⟨ms, gss, e, h1, h2, h3, h4⟩ := ih hR' hn.2 hT' done'
      rw [e1]
      dsimp only [bind, Except.bind]
      rw [e]
      set hits := (R.filter fun r => r.1 ∉ done ∧ Share out i r.2.2) with hhits
      have halive : (R.filter fun r => r.1 ∉ done') = R.filter fun r => r.1 ∉ done ∧ ¬ Share out i r.2.2 := by
        refine List.filter_congr fun r hr => ?_
        have : (∃ s ∈ R, s.1 = r.1 ∧ Share out i s.2.2) ↔ Share out i r.2.2 := by
          constructor
          · rintro ⟨s, hs, e, h⟩
            have : s = r := List.inj_on_of_nodup_map hn.2 hs hr e
            exact this ▸ h
          · exact fun h => ⟨r, hr, rfl, h⟩
        simp only [hd, this, not_or]
      refine ⟨m :: ms, (i :: hits.map fun r => r.2.2) :: gss, rfl, ?_, ?_, ?_, ?_⟩
      · rw [List.map_cons]
        refine .cons (d1.congr (by simp [prodItem]) fun x => by simp [prodItem, total]) h1
      · intro g hg
        rcases List.mem_cons.1 hg with rfl | hg
        · exact ⟨by simp, (List.filter_sublist.map _).cons_cons _⟩
        · exact ⟨(h2 g hg).1, (h2 g hg).2.cons _⟩
      · rw [List.flatten_cons, List.filter_cons_of_pos (by simpa using hk), List.map_cons, List.cons_append]
        refine List.Perm.cons _ ?_
        rw [halive] at h3
        refine (List.Perm.append_left _ h3).trans ?_
        rw [← List.map_append]
        refine List.Perm.map _ ?_
        rw [hhits]
        have := List.filter_append_perm (fun r : ℕ × AnyG × Item => decide (Share out i r.2.2))
          (R.filter fun r => r.1 ∉ done)
        rw [List.filter_filter, List.filter_filter] at this
        refine List.Perm.trans (List.Perm.of_eq ?_) this
        congr 1
        · refine List.filter_congr fun r _ => ?_
          rw [← Bool.decide_and]
          exact decide_eq_decide.2 and_comm
        · refine List.filter_congr fun r _ => ?_
          rw [← decide_not, ← Bool.decide_and]
          exact decide_eq_decide.2 and_comm
      · rw [List.map_cons, List.pairwise_cons]
        refine ⟨fun j hj => ?_, h4⟩
        obtain ⟨g, hg, rfl⟩ := List.mem_map.1 hj
        rintro ⟨v, hv, h5, h6⟩
        unfold prodItem at h5 h6
        dsimp only at h5 h6
        rw [List.mem_flatMap] at h5 h6
        obtain ⟨a, ha, hva⟩ := h5
        obtain ⟨b, hb, hvb⟩ := h6
        have hb' : b ∈ gss.flatten := List.mem_flatten.2 ⟨g, hg, hb⟩
        rw [h3.mem_iff, halive] at hb'
        obtain ⟨t, ht, rfl⟩ := List.mem_map.1 hb'
        rw [List.mem_filter] at ht
        have hti := (of_decide_eq_true ht.2).2
        rcases List.mem_cons.1 ha with rfl | ha
        · exact hti ⟨v, hv, hva, hvb⟩
        · obtain ⟨s, hs, rfl⟩ := List.mem_map.1 ha
          rw [hhits, List.mem_filter] at hs
          exact hti (hT (k, f, i) (List.mem_cons_self ..) s (List.mem_cons_of_mem _ hs.1) t (List.mem_cons_of_mem _ ht.1)
            (of_decide_eq_true hs.2).2 ⟨v, hv, hva, hvb⟩)

theorem total_perm {is js : List Item} (h : is.Perm js) (x : Var → ℝ) : total is x = total js x :=
  (h.map _).sum_eq

theorem total_flatten (gss : List (List Item)) (x : Var → ℝ) : total (gss.map prodItem) x = total gss.flatten x := by
  induction gss with
  | nil => rfl
  | cons g gss ih =>
    rw [List.flatten_cons, total_append, ← ih]
    simp [total, prodItem]

theorem merge_den {out : List Var} {fs : List AnyG} {is : List Item} (h : List.Forall₂ DenH fs is)
    (hT : ∀ i ∈ is, ∀ j ∈ is, ∀ k ∈ is, Share out i j → Share out j k → Share out i k) :
    ∃ (ms : List AnyG) (gss : List (List Item)), merge out fs = .ok ms ∧ List.Forall₂ DenH ms (gss.map prodItem) ∧ (∀ g ∈ gss, g ≠ [] ∧ g.Sublist is) ∧
      (∀ x, total (gss.map prodItem) x = total is x) ∧
      (∀ v, (∃ j ∈ gss.map prodItem, v ∈ j.1) ↔ ∃ i ∈ is, v ∈ i.1) ∧ (gss.map prodItem).Pairwise (Apart out) := by
  have hlen := h.length_eq
  set R := (List.range fs.length).zip (fs.zip is) with hR
  have e1 : R.map (fun r => (r.1, r.2.1)) = (List.range fs.length).zip fs := by
    have : (fun r : ℕ × AnyG × Item => (r.1, r.2.1)) = Prod.map id Prod.fst := rfl
    rw [hR, this, ← List.zip_map_right, List.map_fst_zip hlen.le]
  have e2 : R.map (fun r => r.2.2) = is := by
    have : (fun r : ℕ × AnyG × Item => r.2.2) = Prod.snd ∘ Prod.snd := rfl
    rw [this, ← List.map_map, hR, List.map_snd_zip (by simp [hlen]), List.map_snd_zip hlen.ge]
  have e3 : R.map Prod.fst = List.range fs.length := by
    rw [hR, List.map_fst_zip (by simp [hlen])]
  have hmem : ∀ r ∈ R, DenH r.2.1 r.2.2 ∧ r.2.2 ∈ is := by
    intro r hr
    refine ⟨?_, e2 ▸ List.mem_map_of_mem hr⟩
    have : r.2 ∈ fs.zip is := (List.of_mem_zip (a := r.1) (b := r.2) hr).2
    exact List.forall₂_zip h this
  obtain ⟨ms, gss, h1, h2, h3, h4, h5⟩ := mergeOuter_den (out := out) (R := R) (fun r hr => (hmem r hr).1)
    (by rw [e3]; exact List.nodup_range) (fun r hr s hs t ht => hT _ (hmem r hr).2 _ (hmem s hs).2 _ (hmem t ht).2) []
  rw [e1] at h1
  have e4 : (R.filter fun r => r.1 ∉ ([] : List ℕ)) = R := by simp
  rw [e2] at h3
  have h4' : gss.flatten.Perm is := by
    refine h4.trans (List.Perm.of_eq ?_)
    rw [← e2]
    congr 1
  refine ⟨ms, gss, h1, h2, h3, fun x => by rw [total_flatten, total_perm h4'], fun v => ?_, h5⟩
  simp only [List.mem_map, prodItem]
  constructor
  · rintro ⟨_, ⟨g, hg, rfl⟩, hv⟩
    obtain ⟨i, hi, hv⟩ := List.mem_flatMap.1 hv
    exact ⟨i, h4'.mem_iff.1 (List.mem_flatten.2 ⟨g, hg, hi⟩), hv⟩
  · rintro ⟨i, hi, hv⟩
    obtain ⟨g, hg, hi⟩ := List.mem_flatten.1 (h4'.mem_iff.2 hi)
    exact ⟨_, ⟨g, hg, rfl⟩, List.mem_flatMap.2 ⟨i, hi, hv⟩⟩

/-! ### The loop over the merged factors -/

theorem DenH.vac {f : AnyG} {i : Item} (h : DenH f i) (hf : NotFlat i) : f.2.vac = false := by
  have e := h.den.eq h.good
  have := notFlat_logOf h.good h.vars (by rw [← e]; exact hf)
  cases hv : f.2.vac
  · rfl
  · have := h.honest hv
    simp_all

theorem Den.indep {f : AnyG} {i : Item} (h : Den f i) {vs : List Var} (hvs : ∀ v ∈ vs, v ∉ i.1) : IndepOf i.2 vs :=
  fun x y hxy => den_local h fun v hv => hxy v fun hm => hvs v hm ((h.vars v).1 hv)

/-- One merged factor, all of whose variables are integrated out. -/
theorem full_den {f : AnyG} {i : Item} (h : DenH f i) (hp : PosOn i.2 (· ∈ i.1)) :
    ∃ f' v, f.2.getCov = .ok (f', v) ∧ ∀ vs : List Var, vs.Nodup → (∀ v, v ∈ vs ↔ v ∈ i.1) → ∀ x,
      IntegrableOut vs (fun z => Real.exp (i.2 z)) x ∧ integrateOut vs (fun z => Real.exp (i.2 z)) x = Real.exp v.lw := by
  have hg := h.good
  have e := h.den.eq hg
  have hP : (canOf f.2).prec.PosDef := posDef_logOf hg (by
    rw [← e]
    exact fun z hz hS => hp z hz fun v hv => hS v fun hm => hv ((h.vars v).1 hm))
  refine ⟨_, _, getCov_valid hg.toValid (h.vac (.inr hp)) hP.det_pos, fun vs hn hv x => ?_⟩
  have hperm : vs.Perm f.2.vars := (List.perm_ext_iff_of_nodup hn hg.nodup).2 fun v => (hv v).trans (h.vars v).symm
  obtain ⟨p1, p2⟩ := integrateOut_perm hn hperm (fun z => Real.exp (i.2 z)) x
  rw [p1, p2, e]
  exact integrate_good hg hP x

/-- One merged factor, some of whose variables remain. -/
theorem part_den (hs : HashSeed) {out : List Var} {f : AnyG} {i : Item} (h : DenH f i)
    (hp : PosOn i.2 fun v => v ∈ out ∧ v ∈ i.1) (hf : NotFlat i) :
    ∃ r j, f.2.marginalize hs (hs.strs.toList (inScope out f)) false = .ok r ∧ Den ⟨_, r⟩ j ∧
      (∀ v, v ∈ j.1 ↔ v ∈ i.1 ∧ v ∉ out) ∧ ∀ vs : List Var, vs.Nodup → (∀ v, v ∈ vs ↔ v ∈ out ∧ v ∈ i.1) → ∀ x,
      IntegrableOut vs (fun z => Real.exp (i.2 z)) x ∧ integrateOut vs (fun z => Real.exp (i.2 z)) x = Real.exp (j.2 x) := by
  have hg := h.good
  have e := h.den.eq hg
  have hmem : ∀ v, v ∈ hs.strs.toList (inScope out f) ↔ v ∈ f.2.vars ∧ v ∈ out := by
    intro v
    rw [SetOrder.mem, inScope, List.mem_filter, decide_eq_true_eq]
  obtain ⟨r, M, h1, -, h3, h4, h5, h6⟩ := C32_marginalize_partial hs h.made h.den (getCan_valid hg.toValid) (h.vac hf)
    (vrs := hs.strs.toList (inScope out f)) false (hs.strs.nodup _) (fun v hv => ((hmem v).1 hv).1)
    (fun y hy hz => pos_logOf hg (S := fun v => v ∈ out ∧ v ∈ i.1) (by rw [← e]; exact hp) hy fun k v hk hv => hz k v hk (by
      simp only [hmem, Bool.false_eq_true, iff_false]
      exact fun hh => hv ⟨hh.2, (h.vars v).1 hh.1⟩))
  have hr : ∀ v, v ∈ r.vars ↔ v ∈ i.1 ∧ v ∉ out := by
    intro v
    rw [h4, hmem, h.vars]
    simp only [Bool.false_eq_true, iff_false]
    tauto
  refine ⟨r, (r.vars, M), h1, ⟨.marginalize h.made h1, h5, fun _ => Iff.rfl⟩, hr, fun vs hn hv x => ?_⟩
  refine h6 vs hn (fun v => ?_) x
  rw [hv, hr, h.vars]
  tauto

theorem margLoop_den (hs : HashSeed) {out : List Var} {ms : List AnyG} {js : List Item} (h : List.Forall₂ DenH ms js)
    (hA : js.Pairwise (Apart out)) (hp : ∀ j ∈ js, PosOn j.2 fun v => v ∈ out ∧ v ∈ j.1) (hf : ∀ j ∈ js, NotFlat j) :
    ∃ w rs ks, margLoop hs out ms = .ok (w, rs) ∧ List.Forall₂ Den rs ks ∧
      (∀ v, (∃ k ∈ ks, v ∈ k.1) ↔ (∃ j ∈ js, v ∈ j.1) ∧ v ∉ out) ∧
      ∃ vs : List Var, vs.Nodup ∧ (∀ v, v ∈ vs ↔ v ∈ out ∧ ∃ j ∈ js, v ∈ j.1) ∧ ∀ x,
        IntegrableOut vs (fun z => Real.exp (total js z)) x ∧
        integrateOut vs (fun z => Real.exp (total js z)) x = Real.exp (w + total ks x) := by
  induction h with
  | nil =>
    refine ⟨0, [], [], rfl, .nil, by simp, [], .nil, by simp, fun x => ?_⟩
    obtain ⟨p1, p2⟩ := integrateOut_all (vars := []) (n := 0) .nil rfl (fun _ => Real.exp (total [] x)) x
    have e : (fun z => Real.exp (total [] z)) = fun _ => Real.exp (total [] x) := rfl
    rw [e, p1, p2]
    refine ⟨?_, ?_⟩
    · exact integrable_const _
    · simp [total, Measure.real, volume_pi, Measure.pi_of_empty]
  | @cons m j ms js h1 h2 ih =>
    rw [List.pairwise_cons] at hA
    obtain ⟨w, rs, ks, e1, k1, k2, vs', hn', hv', k3⟩ := ih hA.2 (fun j hj => hp j (List.mem_cons_of_mem _ hj))
      fun j hj => hf j (List.mem_cons_of_mem _ hj)
    have hpj := hp j (List.mem_cons_self ..)
    have hmem : ∀ v, v ∈ hs.strs.toList (inScope out m) ↔ v ∈ out ∧ v ∈ j.1 := by
      intro v
      rw [SetOrder.mem, inScope, List.mem_filter, decide_eq_true_eq, h1.vars, and_comm]
    have hdis : ∀ v ∈ hs.strs.toList (inScope out m), v ∉ vs' := by
      intro v hv hv2
      rw [hmem] at hv
      obtain ⟨h3, k, hk, h4⟩ := (hv' v).1 hv2
      exact hA.1 k hk ⟨v, h3, hv.2, h4⟩
    have hF : IndepOf (fun z => Real.exp (j.2 z)) vs' := by
      intro x y hxy
      dsimp only
      rw [h1.toDen.indep (vs := vs') (fun v hv hvj => ?_) x y hxy]
      obtain ⟨h3, k, hk, h4⟩ := (hv' v).1 hv
      exact hA.1 k hk ⟨v, h3, hvj, h4⟩
    have hG : IndepOf (fun z => Real.exp (total js z)) (hs.strs.toList (inScope out m)) := by
      intro x y hxy
      dsimp only
      congr 1
      unfold total
      congr 1
      refine List.map_congr_left fun k hk => ?_
      obtain ⟨l, hl, rfl⟩ := List.mem_iff_getElem.1 hk
      have hd := (List.forall₂_iff_get.1 h2).2 l (by rw [h2.length_eq]; exact hl) hl
      refine hd.toDen.indep (vs := hs.strs.toList (inScope out m)) (fun v hv hvk => ?_) x y hxy
      rw [hmem] at hv
      exact hA.1 _ hk ⟨v, hv.1, hv.2, hvk⟩
    have hvs : ∀ v, v ∈ hs.strs.toList (inScope out m) ++ vs' ↔ v ∈ out ∧ ∃ k ∈ j :: js, v ∈ k.1 := by
      intro v
      rw [List.mem_append, hmem, hv', List.exists_mem_cons_iff]
      tauto
    have hnd : (hs.strs.toList (inScope out m) ++ vs').Nodup :=
      List.nodup_append'.2 ⟨hs.strs.nodup _, hn', fun v h1 h2 => hdis v h1 h2⟩
    have htot : (fun z => Real.exp (total (j :: js) z)) = fun z => Real.exp (j.2 z) * Real.exp (total js z) := by
      funext z
      rw [← Real.exp_add]
      simp [total]
    rw [margLoop]
    by_cases hfull : ∀ v ∈ m.2.vars, v ∈ out
    · have hsub : ∀ v, v ∈ j.1 ↔ v ∈ out ∧ v ∈ j.1 := fun v => ⟨fun hv => ⟨hfull v ((h1.vars v).2 hv), hv⟩, And.right⟩
      rw [if_pos hfull]
      obtain ⟨f', v, e2, h3⟩ := full_den h1 (fun z hz hS => hpj z hz fun v hv => hS v fun hm => hv ((hsub v).1 hm))
      rw [e2]
      dsimp only [bind, Except.bind]
      rw [e1]
      refine ⟨v.lw + w, rs, ks, rfl, k1, fun u => ?_, _, hnd, hvs, fun x => ?_⟩
      · rw [k2, List.exists_mem_cons_iff]
        have := hsub u
        tauto
      · obtain ⟨q1, q2⟩ := integrateOut_mul hdis hF hG (x := x)
        obtain ⟨i1, i2⟩ := h3 _ (hs.strs.nodup (inScope out m)) (fun u => (hmem u).trans (hsub u).symm) x
        rw [htot, q1, i2, (k3 x).2, ← Real.exp_add, add_assoc]
        exact ⟨q2 i1 (k3 x).1, rfl⟩
    · rw [if_neg hfull]
      obtain ⟨r, k, e2, d2, h3, h4⟩ := part_den hs h1 hpj (hf j (List.mem_cons_self ..))
      rw [e2]
      dsimp only [bind, Except.bind]
      rw [e1]
      refine ⟨w, ⟨_, r⟩ :: rs, k :: ks, rfl, .cons d2 k1, fun u => ?_, _, hnd, hvs, fun x => ?_⟩
      · rw [List.exists_mem_cons_iff, List.exists_mem_cons_iff, k2, h3]
        tauto
      · obtain ⟨q1, q2⟩ := integrateOut_mul hdis hF hG (x := x)
        obtain ⟨i1, i2⟩ := h4 _ (hs.strs.nodup (inScope out m)) hmem x
        rw [htot, q1, i2, (k3 x).2, ← Real.exp_add]
        refine ⟨q2 i1 (k3 x).1, ?_⟩
        congr 1
        simp [total]
        ring

/-- Where the whole product is strictly concave in the integrated variables, so is every merged factor in its own. -/
theorem posOn_part {out : List Var} {ms : List AnyG} {js : List Item} (h : List.Forall₂ DenH ms js)
    (hA : js.Pairwise (Apart out)) (hp : PosOn (total js) (· ∈ out)) : ∀ j ∈ js, PosOn j.2 fun v => v ∈ out ∧ v ∈ j.1 := by
  intro j hj z hz hS
  obtain ⟨pre, post, rfl⟩ := List.append_of_mem hj
  have hloc : ∀ k ∈ pre ++ j :: post, ∃ f, Den f k := by
    intro k hk
    obtain ⟨l, hl, rfl⟩ := List.mem_iff_getElem.1 hk
    exact ⟨_, ((List.forall₂_iff_get.1 h).2 l (by rw [h.length_eq]; exact hl) hl).toDen⟩
  rw [List.pairwise_append] at hA
  obtain ⟨-, hA2, hA3⟩ := hA
  rw [List.pairwise_cons] at hA2
  have hconst : ∀ u : Var → ℝ, (∀ v, ¬ (v ∈ out ∧ v ∈ j.1) → u v = 0) → ∀ k ∈ pre ++ post, k.2 u = k.2 0 := by
    intro u hu k hk
    have hk' : k ∈ pre ++ j :: post := by
      rcases List.mem_append.1 hk with h | h
      · exact List.mem_append_left _ h
      · exact List.mem_append_right _ (List.mem_cons_of_mem _ h)
    obtain ⟨f, hf⟩ := hloc k hk'
    refine den_local hf fun v hv => hu v ?_
    rintro ⟨h1, h2⟩
    rw [hf.vars] at hv
    rcases List.mem_append.1 hk with h | h
    · exact hA3 k h j (List.mem_cons_self ..) ⟨v, h1, hv, h2⟩
    · exact hA2.1 k h ⟨v, h1, h2, hv⟩
  have htot : ∀ u : Var → ℝ, (∀ v, ¬ (v ∈ out ∧ v ∈ j.1) → u v = 0) →
      total (pre ++ j :: post) u = j.2 u + total (pre ++ post) 0 := by
    intro u hu
    have : total (pre ++ post) u = total (pre ++ post) 0 := by
      unfold total
      congr 1
      exact List.map_congr_left (hconst u hu)
    rw [← this, total_append, total_append]
    simp [total]
    ring
  have := hp z hz fun v hv => hS v fun h => hv h.1
  rw [htot z hS, htot (-z) (fun v hv => by simp [hS v hv]), htot 0 fun v hv => rfl] at this
  linarith

end Verif.Fact
