import Verif.SparseModel
import Verif.CatModel
import Verif.FactModel
import Verif.MixModel
import Verif.ClusterModel

/-!
# Model of the operators of factors and of the comparison of messages
-/

namespace Verif.Opr
open Gauss

/-- A factor of one of the classes. Non-linear Gaussians are not included. -/
inductive AnyFactor
  | sparse (f : Sparse ℝ)
  | dense (f : Cat ℝ)
  | gauss (f : AnyG)
  | mix (f : Mix)
  | fact (f : Fact)

/-- `var_names` (_factor.py 26-33). -/
def AnyFactor.vars : AnyFactor → List Var
  | .sparse f => f.vars
  | .dense f => f.vars
  | .gauss f => f.2.vars
  | .mix f => f.vars
  | .fact f => f.vars

/-- `equals` with the default tolerances (_constants.py 5-6), by class of the receiver: sparse_categorical.py 455-491,
categorical.py 186-204, gaussian.py 290-323, gaussian_mixture.py 91-114, factorised_factor.py 337-364. The changes of
cached forms in the operands (C37, C81) are left out here. A factorised factor compared with a factor that is neither
factorised nor Gaussian wraps it (348-350), compares the scopes (351), and then lets a Gaussian compare itself with it
(354, 360), which raises (gaussian.py 304-305); the copy made by the wrapper is not modelled. A factorised factor
without factors that is compared with a factor of no variables falls in the case 353-354. -/
noncomputable def equals (hs : HashSeed) : AnyFactor → AnyFactor → Py Bool
  | .sparse f, .sparse g => Sparse.equals (1 / 10000) (1 / 10000) f g
  | .sparse _, _ => .error .typeError
  | .dense f, .dense g => Cat.equals (1 / 10000) (1 / 10000) f g
  | .dense _, _ => .error .typeError
  | .gauss f, .gauss g => do
    let (_, _, r) ← Gauss.equals (1 / 10000) (1 / 10000) f.2 g.2
    .ok r
  | .gauss _, _ => .error .valueError
  | .mix f, .mix g => do
    let (_, _, r) ← Mix.equals f g
    .ok r
  | .mix _, _ => .error .typeError
  | .fact f, .fact g => do
    let (_, _, r) ← Fact.equals f g
    .ok r
  | .fact f, .gauss g => do
    let (_, r) ← Fact.equalsG hs f g
    .ok r
  | .fact f, x =>
    if ¬ Gauss.sameSet x.vars f.vars then .ok false
    else if f.factors.length ≠ 1 then do
      let _ ← Fact.joint f
      .error .valueError
    else .error .valueError

/-- The special methods that Python looks up for binary operators. -/
inductive Slot
  | mul | div | truediv | eq | ne
  deriving DecidableEq

/-- The special methods defined by `Factor` (_factor.py 197-231). No class adds one. -/
def slots : List Slot := [.mul, .div, .eq, .ne]

/-- `f / g` in Python 3, the only version the package supports (setup.py 19-24): `__truediv__` is looked up, and the
reflected method of the other operand; `__div__` is a method of Python 2. `divide` is the method of the class. -/
def truediv {α : Type} (divide : α → α → Py α) (f g : α) : Py α :=
  if Slot.truediv ∈ slots then divide f g else .error .typeError

/-- `f * g` (_factor.py 197-204). `multiply` is the method of the class of `f`; its result may include the operands with
changed caches. -/
def mul {α β γ : Type} (multiply : α → β → Py γ) (f : α) (g : β) : Py γ :=
  if Slot.mul ∈ slots then multiply f g else .error .typeError

/-- `Gaussian.multiply` (gaussian.py 585-594) on factors of any dimension, leaving out the operands' caches. -/
noncomputable def gaussMultiply (f g : AnyG) : Py AnyG := do
  let (_, _, r) ← f.2.multiply g.2
  .ok ⟨_, r⟩

/-- `f == g` (_factor.py 215-222). -/
noncomputable def eq (hs : HashSeed) (f g : AnyFactor) : Py Bool := equals hs f g

/-- `f != g` (_factor.py 224-231). -/
noncomputable def ne (hs : HashSeed) (f g : AnyFactor) : Py Bool := do
  let r ← eq hs f g
  .ok (!r)

/-- `Message.equals` (_cluster.py 186-202), for messages of sparse factors. -/
noncomputable def msgEquals (rtol atol : ℝ) (a b : CG.Msg (Sparse ℝ)) : Py Bool :=
  if a.snd ≠ b.snd then .ok false
  else if a.rcv ≠ b.rcv then .ok false
  else do
    let r ← Sparse.equals rtol atol a.factor b.factor
    if ¬ r then .ok false else .ok true

/-- `Message.copy` (_cluster.py 278-286), for messages of sparse factors; `factor` (241-248) copies as well. The fresh
uuid is not modelled. -/
def msgCopy (a : CG.Msg (Sparse ℝ)) : Py (CG.Msg (Sparse ℝ)) := do
  let f ← a.factor.copy
  let f ← f.copy
  .ok ⟨f, a.snd, a.rcv⟩

/-- `Message.kl_divergence` (_cluster.py 258-267). -/
noncomputable def msgKl (hs : HashSeed) (a b : CG.Msg (Sparse ℝ)) : Py (XF ℝ) := do
  let f ← a.factor.copy
  let g ← b.factor.copy
  Sparse.klDivergence hs f g

/-- `Message.distance_from_vacuous` (_cluster.py 250-256). -/
noncomputable def msgDistance (hs : HashSeed) (a : CG.Msg (Sparse ℝ)) : Py (XF ℝ) := do
  let f ← a.factor.copy
  Sparse.distanceFromVacuous hs f

end Verif.Opr
