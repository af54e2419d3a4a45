import Mathlib.Analysis.SpecialFunctions.Log.Basic
import Verif.Py

/-!
# Floating point values with exact finite part

`XF K` has the IEEE 754 special values; finite values are exact elements of `K`.
Simplification: no rounding, no overflow, and a single zero.
-/

namespace Verif

/-- A Python/numpy float: NaN, -inf, +inf or an exact finite value. -/
inductive XF (K : Type)
  | nan
  | ninf
  | fin (r : K)
  | pinf
  deriving DecidableEq, Repr

namespace XF
variable {K : Type}

/-- IEEE addition (`operator.add`). -/
def add [Add K] : XF K → XF K → XF K
  | nan, _ => nan
  | _, nan => nan
  | ninf, pinf => nan
  | pinf, ninf => nan
  | ninf, _ => ninf
  | _, ninf => ninf
  | pinf, _ => pinf
  | _, pinf => pinf
  | fin a, fin b => fin (a + b)

/-- IEEE negation. -/
def neg [Neg K] : XF K → XF K
  | nan => nan
  | ninf => pinf
  | pinf => ninf
  | fin a => fin (-a)

/-- IEEE subtraction (`operator.sub`). -/
def sub [Sub K] : XF K → XF K → XF K
  | nan, _ => nan
  | _, nan => nan
  | ninf, ninf => nan
  | pinf, pinf => nan
  | ninf, _ => ninf
  | _, ninf => pinf
  | pinf, _ => pinf
  | _, pinf => ninf
  | fin a, fin b => fin (a - b)

/-- IEEE equality `==`: NaN is not equal to itself. -/
def eq [DecidableEq K] : XF K → XF K → Bool
  | nan, _ => false
  | _, nan => false
  | a, b => decide (a = b)

/-- IEEE `!=`. -/
def ne [DecidableEq K] (a b : XF K) : Bool := !(eq a b)

/-- IEEE `<`. -/
def lt [LT K] [DecidableLT K] : XF K → XF K → Bool
  | nan, _ => false
  | _, nan => false
  | ninf, ninf => false
  | ninf, _ => true
  | _, ninf => false
  | pinf, _ => false
  | _, pinf => true
  | fin a, fin b => decide (a < b)

/-- `np.isnan`. -/
def isNan : XF K → Bool
  | nan => true
  | _ => false

/-- Neither NaN nor `+inf`: the log of a finite non-negative number. -/
def Proper : XF K → Prop
  | ninf => True
  | fin _ => True
  | _ => False

/-- A finite value. -/
def Finite : XF K → Prop
  | fin _ => True
  | _ => False

theorem eq_of_eq [DecidableEq K] {a b : XF K} (h : XF.eq a b = true) : a = b := by
  cases a <;> cases b <;> simp_all [XF.eq]

theorem eq_of_not_ne [DecidableEq K] {a b : XF K} (h : XF.ne a b = false) : a = b := by
  apply eq_of_eq; simpa [XF.ne] using h

theorem ne_self [DecidableEq K] {a : XF K} (h : a ≠ nan) : XF.ne a a = false := by
  cases a <;> simp_all [XF.ne, XF.eq]

/-- `np.exp`. -/
noncomputable def exp : XF ℝ → XF ℝ
  | nan => nan
  | ninf => fin 0
  | fin r => fin (Real.exp r)
  | pinf => pinf

/-- `np.log` (warnings for zero and negative arguments ignored). -/
noncomputable def log : XF ℝ → XF ℝ
  | nan => nan
  | ninf => nan
  | fin r => if r < 0 then nan else if r = 0 then ninf else fin (Real.log r)
  | pinf => pinf

/-- IEEE multiplication. -/
noncomputable def mul : XF ℝ → XF ℝ → XF ℝ
  | nan, _ => nan
  | _, nan => nan
  | fin a, fin b => fin (a * b)
  | fin a, pinf => if a = 0 then nan else if 0 < a then pinf else ninf
  | fin a, ninf => if a = 0 then nan else if 0 < a then ninf else pinf
  | pinf, fin a => if a = 0 then nan else if 0 < a then pinf else ninf
  | ninf, fin a => if a = 0 then nan else if 0 < a then ninf else pinf
  | pinf, pinf => pinf
  | ninf, ninf => pinf
  | pinf, ninf => ninf
  | ninf, pinf => ninf

/-- `np.sum` of a list of floats. -/
def sum (l : List (XF ℝ)) : XF ℝ := l.foldl add (fin 0)

/-- `scipy.special.logsumexp` of a non-empty list. With exact arithmetic the shift by the maximum has
no effect, so this is `log (sum (exp a))`, also for the special values. An empty list raises
`ValueError` (zero-size reduction). -/
noncomputable def logsumexp (l : List (XF ℝ)) : Py (XF ℝ) :=
  if l = [] then .error .valueError else .ok (log (sum (l.map exp)))

/-- The non-negative real number whose log is stored (specification helper; only meaningful for
`Proper` values). -/
noncomputable def prob : XF ℝ → ℝ
  | fin r => Real.exp r
  | _ => 0

/-- `np.isclose(a, b, rtol, atol)`: `|a-b| <= atol + rtol*|b|` for finite values, equality for
infinities, and false with NaN (`equal_nan=False`). -/
noncomputable def isclose (rtol atol : ℝ) : XF ℝ → XF ℝ → Bool
  | fin a, fin b => decide (|a - b| ≤ atol + rtol * |b|)
  | ninf, ninf => true
  | pinf, pinf => true
  | _, _ => false

theorem prob_nonneg (a : XF ℝ) : 0 ≤ prob a := by
  cases a <;> simp [prob, (Real.exp_pos _).le]

theorem prob_pos_iff {a : XF ℝ} : 0 < prob a ↔ a.Finite := by
  cases a <;> simp [prob, Finite, Real.exp_pos]

theorem prob_eq_zero_iff {a : XF ℝ} (h : a.Proper) : prob a = 0 ↔ a = ninf := by
  cases a <;> simp_all [prob, Proper]

theorem proper_iff {a : XF ℝ} : a.Proper ↔ a = ninf ∨ ∃ r, a = fin r := by
  cases a <;> simp [Proper]

theorem exp_proper {a : XF ℝ} (h : a.Proper) : exp a = fin (prob a) := by
  cases a <;> simp_all [exp, prob, Proper]

/-- The log value of a probability: inverse of `prob`. -/
noncomputable def ofProb (p : ℝ) : XF ℝ := if p = 0 then ninf else fin (Real.log p)

theorem prob_ofProb {p : ℝ} (h : 0 ≤ p) : prob (ofProb p) = p := by
  unfold ofProb; split
  · simp [prob, *]
  · simp only [prob]; exact Real.exp_log (lt_of_le_of_ne h (Ne.symm ‹_›))

theorem proper_ofProb (p : ℝ) : (ofProb p).Proper := by
  unfold ofProb; split <;> simp [Proper]

theorem log_fin {p : ℝ} (h : 0 ≤ p) : log (fin p) = ofProb p := by
  simp [log, ofProb, not_lt.2 h]

theorem ofProb_prob {a : XF ℝ} (h : a.Proper) : ofProb (prob a) = a := by
  cases a <;> simp_all [prob, Proper, ofProb]

theorem prob_inj {a b : XF ℝ} (ha : a.Proper) (hb : b.Proper) (h : prob a = prob b) : a = b := by
  rw [← ofProb_prob ha, ← ofProb_prob hb, h]

theorem add_proper {K} [Add K] {a b : XF K} (ha : a.Proper) (hb : b.Proper) : (add a b).Proper := by
  cases a <;> cases b <;> simp_all [add, Proper]

theorem prob_add {a b : XF ℝ} (ha : a.Proper) (hb : b.Proper) :
    prob (add a b) = prob a * prob b := by
  cases a <;> cases b <;> simp_all [add, prob, Proper, Real.exp_add]

theorem foldl_add_fin (l : List ℝ) (s : ℝ) :
    (l.map fin).foldl add (fin s) = fin (s + l.sum) := by
  induction l generalizing s with
  | nil => simp
  | cons a l ih => simp [add, ih, add_assoc]

theorem sum_fin (l : List ℝ) : sum (l.map fin) = fin l.sum := by
  simp [sum, foldl_add_fin]

theorem logsumexp_proper {l : List (XF ℝ)} (hne : l ≠ []) (h : ∀ a ∈ l, a.Proper) :
    logsumexp l = .ok (ofProb (l.map prob).sum) := by
  have : l.map exp = (l.map prob).map fin := by
    rw [List.map_map]
    exact List.map_congr_left fun a ha => exp_proper (h a ha)
  rw [logsumexp, if_neg hne, this, sum_fin, log_fin]
  exact List.sum_nonneg (by
    intro x hx
    obtain ⟨a, _, rfl⟩ := List.mem_map.1 hx
    exact prob_nonneg a)

end XF
end Verif
