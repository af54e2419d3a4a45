import Verif.GaussProps4

/-!
# C41: templates of linear Gaussians
-/

namespace Verif.Gauss
open Matrix

/-- **C41 (templates of linear Gaussians).** A factor made from the template under its own names has the variables of
the linear Gaussian in the same order, and the same parameters except for the constant, which is 0. -/
theorem C41_linear_template {p q : ℕ} (a : Matrix (Fin p) (Fin q) ℝ) (n : Matrix (Fin p) (Fin p) ℝ) (xs ys : List String)
    (t : GTemplate (xs.length + xs.length)) (h : makeLinearTemplate a n xs ys = .ok t) :
    ∃ f f' c b b', makeLinearGaussian a n xs ys = .ok f ∧ f.getCan = .ok (f', c) ∧
      t.makeFactor t.varTemplates = .ok b ∧ b.vars = f.vars ∧ b.getCan = .ok (b', ⟨c.prec, c.h, 0⟩) := by
  unfold makeLinearTemplate at h
  obtain ⟨-, -, h⟩ := py_bind_eq_ok.1 h
  obtain ⟨f, hf, h⟩ := py_bind_eq_ok.1 h
  obtain ⟨⟨f', c⟩, hc, h⟩ := py_bind_eq_ok.1 h
  cases h
  have hm : ∃ c0, mkCan (xs ++ ys) c0 = .ok f := by
    unfold makeLinearGaussian at hf
    split at hf
    · obtain ⟨c0, -, h2⟩ := py_bind_eq_ok.1 hf
      exact ⟨c0, h2⟩
    · cases hf
  obtain ⟨c0, hm⟩ := hm
  have hv : (xs ++ ys).Nodup ∧ xs.length + xs.length = (xs ++ ys).length ∧ f.vars = xs ++ ys := by
    unfold mkCan at hm
    split at hm
    · cases hm
    · split at hm
      · cases hm
      · rename_i h1 h2
        cases hm
        exact ⟨not_not.1 h1, not_not.1 h2, rfl⟩
  refine ⟨f, f', c, ⟨xs ++ ys, some ⟨c.prec, c.h, 0⟩, none, true⟩, _, hf, hc, ?_, hv.2.2.symm, rfl⟩
  unfold GTemplate.makeFactor
  dsimp only
  unfold mkCan
  rw [if_neg (not_not.2 hv.1), if_neg (not_not.2 hv.2.1)]
  rfl

/-- The hypothesis of `C41_linear_template` can be met. -/
example : ∃ t, makeLinearTemplate (1 : Matrix (Fin 2) (Fin 2) ℝ) exS ["a", "b"] ["c", "d"] = .ok t := by
  obtain ⟨g, L, hg, -⟩ := C40_linear_partial (A := 1) exS_posDef (xs := ["a", "b"]) (ys := ["c", "d"]) rfl rfl (by decide)
  have hc : ∃ c, g.can = some c := by
    unfold makeLinearGaussian at hg
    split at hg
    · obtain ⟨c0, -, h2⟩ := py_bind_eq_ok.1 hg
      unfold mkCan at h2
      split at h2
      · cases h2
      · split at h2
        · cases h2
        · cases h2
          exact ⟨_, rfl⟩
    · cases hg
  obtain ⟨c, hc⟩ := hc
  have hgc : g.getCan = .ok (g, c) := by
    unfold getCan updateCan
    rw [hc]
    dsimp only
    rw [py_bind_ok, hc]
  unfold makeLinearTemplate
  rw [hg]
  exact ⟨⟨{ c with g := 0 }, ["a", "b"] ++ ["c", "d"]⟩, by
    rw [py_bind_ok, hgc]
    rfl⟩

end Verif.Gauss
