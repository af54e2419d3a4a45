# Formal model of veroku in Lean 4

## What is here

* `properties.jsonl`: the properties (C01, ...), stated about the Python API.
* `lean/Verif/`: the model, the specifications and the proofs.
* `MANIFEST.json`: which theorem settles which property.
* `seeded/LOG.jsonl`: mutation tests of the theorems.

The Python source in `/repo` was read, not run.

## Trusted base

* Lean 4 kernel; the axioms `propext`, `Classical.choice`, `Quot.sound` (no others; no `sorry`,
  no `native_decide`, no `bv_decide`, no own axioms). `Verif/Axioms.lean` prints them.
* The reading of the Python source that the definitions express. Each definition cites file and lines.
* The conventions below for what numpy/scipy/networkx functions compute.

## Modelling conventions

* **Exceptions are values.** A Python function that can raise is a Lean function into
  `Except PyErr _`; the constructors of `PyErr` are the exception classes.
* **Numbers.** Floating point numbers are `XF K`: `nan`, `-inf`, `+inf` and finite values from a field
  `K` (always `ℝ` where `exp`/`log` occur). Special values follow IEEE 754. Finite arithmetic is *exact*;
  rounding, overflow and underflow are not modelled. `logsumexp` is `log` of the sum of `exp`.
* **Dictionaries** are association lists in insertion order, with Python's update-in-place.
* **Sets.** `list(set(...))` has an order that depends on the hash seed. It is a parameter
  (`SetOrder`), constrained only to return each element once. Theorems quantify over it.
* **Tensors** are a shape and a total index function; only in-range indices are meaningful and every
  theorem only speaks about those. Numpy broadcasting, `transpose`, `expand_dims`, `squeeze` are modelled.
* **Objects and aliasing.** Factors are values. The code copies on almost every operation; places where
  it mutates an argument (`Gaussian.equals`) or shares objects are modelled explicitly as state.
* **Gaussians.** An object is its variable list, the two optional parameter sets (canonical, covariance) and the
  vacuity flag, with the caching of the two forms as state changes. Arrays have typed shapes; a shape that
  does not fit is a `ValueError`; numpy broadcasting of arrays of other shapes is not modelled. Operations
  that give `nan` in numpy (log of a negative number) stop with the error value `nan`. `np.linalg.inv` fails
  exactly on determinant zero. `is_pos_def` is stated through complex eigenvalues, as in the code.
  `GaussHist.lean` defines the objects a program can hold (`Made`): any history of constructor, operation and
  accessor calls; the constructor arguments are assumed symmetric (positive definite for covariances).
* **Gaussians in cluster graphs.** `gaussOps` gives the cluster graph the Gaussian operations. The parameters an operation
  caches in its operands are dropped there, because the graph works on copies or replaces the operand by the result.
  `copy` sets the vacuity flag again, so where the graph copies before it operates, so does the model. A gain of zero
  means equal messages only up to the tolerance of `equals` (1e-4), so C87 assumes messages that are exactly
  proportional; C89 shows that such a state is reached.
* **Dense factors in cluster graphs.** `denseOps` gives the cluster graph the operations of `Categorical`. They do not
  satisfy the laws the general theorems need (C17, C18), so the proofs go through repaired operations `idealOps`
  (a proof device, not code): where clusters share at most one unobserved variable, every step of the code is a step
  with the repaired operations, and the converse holds exactly if no cancelled message has a zero.
* **Sigma points.** `np.linalg.cholesky` is the lower triangular matrix with positive diagonal whose product with its
  transpose is the argument (it reads the lower triangle only) and fails if there is none. `np.cov` of a single row
  has no dimensions. A transform is any function of names and points that may raise.
* **Sampling.** The random numbers are arguments of the model: the standard normal numbers of
  `np.random.normal`, and one uniform number per draw
  for `np.random.choice` (first position of the cumulative weights above it). That numpy's generator delivers independent
  numbers with these laws is assumed; the theorems are about the law of the result under the product measure.
* **Graphs.** `networkx.maximum_spanning_tree` is Kruskal's algorithm with an arbitrary order among equal
  weights; the orientation of the edges returned is arbitrary.
* **Not modelled:** drawing itself (matplotlib, animations): a plot is the data passed to it; `show`/`__repr__` except for Gaussians (where the text is the parameters shown) and
  categorical factors (`Table*.lean`, with the format of the value as a parameter),
  pickling, `FactorizedFactor.show`,
  floating point rounding. `scipy.optimize.minimize` and `numdifftools.Hessian` are parameters (`MixDivModel.lean`); the
  theorems say which properties of them they need.

## Plan per area

| Area | Model | Proof idea | Properties |
|---|---|---|---|
| `_factor.py`, `_factor_utils.py` | `Py.lean`, `Utils*.lean`; `Conv*.lean`: parameters as numbers, nested lists and arrays (strings and other objects not modelled) | induction on lists and nested lists | C12 C73 C74 C75 C103 C104 |
| `_sort_almost_sorted` | `Sort*.lean` | pairwise order of lists | C105 |
| listings of categorical factors | `List*.lean` (rows as lists, no arrays or data frames) | the rows are a permutation of all assignments | C106 C107 |
| `_factor_template.py`, names in the `make_factor` functions | `Format*.lean`: `str.format` as a function on lists of characters (literals, escapes, plain fields, malformed strings; other fields are an arbitrary parameter) | induction over the parts of a template | C76 |
| `sparse_categorical.py` | `Sparse*.lean`: nested/flattened dictionaries, each branch of the binary operator | a factor denotes a function from assignments to log values; each operation is shown to compute the function given by a small specification (`Spec.lean`: pointwise sum, iterated sum over a variable, substitution) | C01–C13 |
| `categorical.py` | `Tensor.lean`, `Categorical*.lean` | same specification; index calculus for transpose/expand/broadcast | C14–C27 |
| `gaussian.py` | `Gaussian*.lean`, typed real matrices, both lazily cached forms as state | log potential as a function of a named point; Schur complement; Lebesgue integral of a Gaussian in n dimensions; invariant over operation histories; `Show*.lean`: text, random Gaussians with the draws as parameters | C28–C41 C62 C80 C114 C115 |
| `cluster_graph.py`, `_cluster.py` | `ClusterGraph*.lean`, parametric in the factor operations | invariants over all schedules (induction over the message sequence); running intersection from spanning trees; leaf elimination for tree exactness; weights of subtrees for termination on trees; the same over Lebesgue integrals for Gaussian factors (a factor has a finite integral exactly if its precision is positive definite); for networks of conditional distributions (`ClusterSemi*.lean`) the invariant is that each cluster times bounded messages can be integrated over all but any one variable | C42–C55 C78 C79 C87–C89 C97–C102 C116–C118 |
| `experimental/gaussian_mixture.py` | `Mix*.lean` over the Gaussian model; `MixDiv*.lean`: `argmax` and cancel methods 1 and 2 with the optimiser and the derivatives as parameters | lists of components, finite sums, moments of normal densities, complex weights | C56–C61 C81–C83 C110–C112 |
| `experimental/factorised_factor.py` | `Fact*.lean` over the Gaussian model (operands are Gaussians; `show` not modelled) | list induction over factors that are Gaussians after any history, Fubini for the merged groups, counterexamples | C63–C68 |
| `_sigma_points.py`, `nonlinear_gaussian.py` | `Sigma*.lean`, `NonLin*.lean` (class `NonLinearGaussian`, operands are Gaussians), `NlgMix*.lean` (class `NonLinearGaussianMixture`) | finite sums over sigma points; Schur complement for the joint of an affine transform; a non-linear Gaussian denotes the log potentials of its two parts | C69–C72 C84–C86 C90–C96 C113 |
| `sample` of Gaussians, mixtures, non-linear Gaussians | `Sample*.lean`: functions of the random numbers | law of an affine image of standard normal noise, law of a choice by cumulative weights | C108 C109 |
| `__repr__` of categorical factors | `Table*.lean`: texts as lists of characters, tab stops every eight columns | starting columns of the cells of a line | C119 |
| `plot_message_convergence` | `Plot*.lean`: the data of the figure, distances as extended reals | maximum of the finite distances | C120 |
| `plot` of Gaussians and mixtures | `PlotGauss*.lean`, `PlotM*.lean`: the points drawn | Chebyshev's inequality for normal densities and sums of them | C121 |
| `make_factor` of the templates | `TemplateModel.lean`: names from `FormatModel.lean` passed to the constructors | C76 with the constructor theorems (C14, C41) | C122 |
| `Factor.is_vacuous`; size of the divergence | `GainModel.lean`: the comparison with 1e-10 | `Pinsker.lean` with C11, C24, C36 and the run invariants of the graph | C123 |
| Cluster graphs of `Gaussian` and `NonLinearGaussian` factors | `NlgCgModel.lean`: the operations of `ClusterModel.lean` dispatched to the two classes | `NlgCgStrict.lean` relates a run to one with operations that refuse to lose factors; those satisfy the laws of continuous factors (`NlgCgLaws.lean`), so the calibration theorem applies | C124 |
| Cluster graphs of `Gaussian` and `GaussianMixture` factors | `MixCgModel.lean`: the operations of `ClusterModel.lean` dispatched to the two classes | Mixture clusters have no neighbours, because their messages have no distance from vacuous; so a run never divides by or into a mixture (`ClusterCongr.lean`), and the class without such divisions satisfies the laws of continuous factors (`MixCgProps.lean`) | C125 |
| Sparse factors whose assignment values are not below the cardinalities (`examples/sudoku.ipynb` uses `1 .. 9`) | `SparseLabel.lean`: the same table under larger cardinalities; no new model of code | `multiply`, `cancel`, `marginalize`, `reduce` and `kl_divergence` do not depend on the cardinalities; `distance_from_vacuous` does, and is not negative if no variable has more values than its cardinality (Gibbs). So such factors satisfy the same laws (`ClusterLabel.lean`), and the belief invariant gives the support of every marginal (`ClusterPrune.lean`) | C126 |
| Operators of `Factor` (_factor.py 197-231), comparison across classes, `Message.equals`, `copy`, `kl_divergence`, `distance_from_vacuous` | `OperatorModel.lean`: lookup of the special method, dispatch of `equals` by class of the receiver | Reduction to the theorems on the methods; case analysis on the classes | C127, C128 |
| `plot_next_messages_info_gain` (cluster_graph.py 248-273), the lists it draws and its legend | `ClusterGains.lean`: curves as lists of recorded gains; the drawing itself is not modelled | Induction over executions; which messages add a point | C129 |
| `cancel_method` of `GaussianMixture` (gaussian_mixture.py 44-68, 127-219, 327-340) | `MixModel.lean`; results of operations as the relation `Derived` in `MixCancelProps.lean` | Case distinction over the operations | C130 |
| Evidence about variables of no factor (cluster_graph.py 52-173, 378-394, 417-473) | `ClusterModel.lean`; the program build, process, ask is `answer` in `ClusterIrrelevantProps.lean` | The graphs are equal up to the dictionary of special evidence; message passing introduces no variables (induction over `Run`) | C131 |
| Sparse equality with any default (sparse_categorical.py `equals`, `_all_non_default_equal`, `_is_dense`) | `SparseModel.lean` | A table with as many entries as assignments has one for each; otherwise the defaults are compared | C132 |
| `_cov_exists` (gaussian.py 359-372) | `covExists` in `GaussModel.lean` | Determinants | C133 |
| `is_vacuous` of mixtures and factorised factors (gaussian_mixture.py 342-356, factorised_factor.py 106-121) | `MixModel.lean`, `FactModel.lean` | Limits along a line: strictly concave Gaussians tend to zero, constants stay | C134 |
| Sparse `weight` and `normalize` with any default (sparse_categorical.py 726-738, 846-853) | `SparseModel.lean` | The sum over all assignments is the sum of the entries plus the default times the number of missing entries | C135 |
| `_animation.py` string helpers | `Anim*.lean` (regular expressions and images not modelled) | string/list reasoning | C77 |

## Where the code violates a property

For these the negation is proved from a concrete input, and the part that does hold is a theorem with
suffix `_partial` (found by reading; confirmed in the model):

* C07 sparse `potential` permutes with the inverse permutation: wrong from 3 variables on.
* C10/C25 tolerance: dense `equals` is asymmetric (`np.allclose`).
* C13 non-zero defaults are lost by `multiply`, `marginalize`, `reduce`, `reorder`.
* C17 dense `cancel` compares unaligned tensors: raises or zeroes the wrong cells.
* C18 dense `marginalize` labels axes in the requested order without transposing; `squeeze` drops
  kept variables of cardinality one.
* C32 Gaussian `marginalize` of an object flagged as vacuous returns a vacuous factor; precisions with entries
  below 1e-8 that are not positive definite are flagged.
* C33 Gaussian `reduce` of all variables always raises.
* C34 Gaussian `reorder` accepts a list with a repeated name.
* C36 Gaussian `kl_divergence` does not align parameter orders.
* C37 Gaussian `equals` reorders its argument.
* C40 `make_linear_gaussian` raises for non-square matrices.
* C39 the vacuity flag can be set on factors that are not constant; constants are lost.
* C41 template factors claim to be vacuous, so `marginalize` drops their parameters.
* C51 `get_posterior_joint` raises while some path has not sent a message.
* C54 a second `process_graph` call on a single cluster graph reduces again.
* C100 factors over `a, b`, `a` and `a, b, c` (in this order) leave a cluster over `a, b` beside one over `a, b, c`;
  factors with equal scopes are never merged.
* C97 dense cluster graphs give wrong joint marginals when the query order differs from the stored order, and messages
  over two variables are mislabelled depending on the hash seed. C98 the second message along a path raises
  `IndexError` when the first one had a zero entry.
* C60 mixture `equals` depends on order and is asymmetric. C62 the split loses the weight.
* C57 `reduce` of all variables of a mixture raises (as C33).
* C81 mixture `equals` reorders the components of its argument but not its variable names, so its potential changes.
* C82 `copy` of a mixture forgets the cancel method.
* C63 `var_names` of a factorised product does not list new variables. C65 merging misses overlap through a
  third factor (the marginal gets a wrong weight) and never drops a variable that `var_names` does not list.
* C64 factorised `divide` deletes a factor that is only found equal to the divisor, e.g. any two vacuous factors.
* C66 reduce raises if the evidence covers a factor and more, or all factors. C67 with repeated scopes `equals` counts
  matching pairs, so it is neither sound nor reflexive. C68 always raises for two factors.
* C71 a factor flagged vacuous is dropped by `multiply` and `divide`, whatever its variables; dividing out the whole
  conditioning factor raises.
* C72 `UnboundLocalError` or `AssertionError` when all conditioning variables are observed.
* C86 `marginalize(keep=False)` raises after an observation; while the joint is vacuous the marginal ignores evidence and
  (for conditioning variables) the weight.
* C90 a mixture of non-linear Gaussians cannot be multiplied by a Gaussian (`GaussianMixture([Gaussian])` gets the class),
  and a single component over one variable is split, which loses its weight. C91 joints of components in different
  orders raise `ValueError`. C93 `marginalize` of a mixture always raises (`TypeError` once the marginals are made).
  C95 `copy`, `multiply`, `divide` and `reduce` forget `split_singles_before_absorb`.
* C74 `remove_duplicate_values` raises for an empty list and repeats the first element for a negative tolerance.
* C76 holds as stated; `formattable` lets `IndexError`/`ValueError` escape (`C76_raises`).
* C77 the substring check can find a string joined by the removal of the other, and does not check that the longer of
  two nested strings occurs.
* C103 a list of lists is taken as a vector, an array of shape `(1, n)` as a number (its minimum); `[[[1]]]` gives an
  `UnboundLocalError`. C104 a name of several characters given as a string has the dimension of its length.
* C105 queues with fewer than two elements raise. C107 the constructor accepts repeated assignment names.
* C109 `sample` of a mixture of non-linear Gaussians stacks the samples of its factors as further rows, so a mixture of k
  factors over d variables returns k·d rows; the rows of a single one are in the order of the joint, not of `var_names`.
* C110 `_complex_cov_form_to_real_canform` takes the absolute value of the constant, so with cancel method 2 a component of
  the numerator that exceeds the divisor at the origin is scaled down, even if all components of the divisor are equal;
  for different components the spread of the (negative definite) components can turn the result into `exp(x²/6)`.
* C111 with cancel method 1 the modes are compared as arrays, which raises for two or more variables; for one variable the
  log weight is multiplied by the log potential instead of added, so the result is only proportional to the quotient
  (twice the quotient in the witness).
* C113 `equals` of a non-linear Gaussian uses the stored joint, which is vacuous until a parameter is read: a new factor
  differs from its own joint distribution and equals the vacuous Gaussian. Two non-linear Gaussians cannot be compared.
* C114 `repr` always formats the covariance form, so it raises for constructed vacuous factors and singular precisions.
* C116 a conditional distribution with two parents that are observed nowhere cannot be integrated over both, so making
  its message about the child raises: the constructor of the graph for `c = a + b + noise`, `d = c + noise` raises for
  every hash seed. Clusters that share two variables can exchange messages with a singular precision that is not flat;
  the divergence of the next such message raises `LinAlgError`.
* C119 a table index with eight or more digits, or a factor without variables, shifts the cells of the table away from the header.
* C120 the convergence plot raises `ValueError` if no gain is finite (before any message, or one cluster); if all finite gains
  are zero everything is red; with `log=True` and finite gains below one the infinite ones are drawn below the finite ones.
* C121 with `log=True` the curve of a mixture over one variable is the sum of the log potentials of the components, not the
  log potential; a vacuous Gaussian over two variables cannot be plotted even if limits are given; of a mixture over two
  variables one limit given alone is ignored (with a printed warning).
* C122 `NonLinearGaussianTemplate.make_factor` asserts twice that `conditioning_vars` is `None` and never that
  `conditional_vars` is: conditional variables given with a dictionary are silently dropped. Without names and dictionary
  the classes raise different exceptions.
* C123 the bound fails for Gaussians that `equals` takes for equal (tolerance 1/10000): their divergence is zero. The
  tolerance is absolute, so flat Gaussians (precisions up to 1e-4) have divergence zero although their densities at the
  common mode differ by any factor (`C123_gauss_violated`).
* C124 `Gaussian.multiply` reads the joint of a `NonLinearGaussian`, which is flat as long as nothing is known about its
  conditioning variables: a Gaussian with a larger scope absorbs the non-linear factor when the graph is built, and no trace
  is left of it (`C124_swallowed`). If special evidence covers all conditioning variables, every query raises
  (`C124_inputs_observed`); if it covers only conditional variables, the marginal over the conditioning variables ignores it
  (`C124_flat`).
* C125 `GaussianMixture.distance_from_vacuous` and `kl_divergence` raise `NotImplementedError`, so `ClusterGraph` cannot be
  built if a cluster with a mixture would get a neighbour (`C125_violated_overlap`); a Gaussian with a larger scope that should
  absorb a mixture raises `AttributeError` (`C125_violated_inside`).
* C127 `Factor.__div__` is a Python 2 method; in Python 3 `f / g` raises `TypeError` (`C127_division_violated`). `==` between
  factors of different classes raises `TypeError` or `ValueError` instead of returning `False` (`C127_foreign_violated`), and a
  factorised factor answers where the Gaussian raises (`C127_asymmetric`).
* C129 The axis "iteration" of `plot_next_messages_info_gain` is not the iteration: a path records a value only when a message is
  sent along it or arrives at its sender, so in graphs of three or more clusters the curves are shifted against each other
  (`C129_axis_violated`). In graphs of two clusters they are aligned (`C129_two_clusters`).
* C130 The `cancel_method` chosen for a `GaussianMixture` is lost by every operation that returns a mixture: the result has method 0
  (`C130_violated`). Only the object made by the constructor uses the chosen method.
* C131 Special evidence about a variable that no factor mentions makes `process_graph` raise if the graph has a single cluster of
  sparse or Gaussian factors (`C131_sparse_single_raises`, `C131_gaussian_single_raises`, `C131_violated`). In larger graphs such
  entries have no effect.
* C132 `SparseCategorical.equals` with defaults other than -inf: `reorder` drops the default of the second factor, so a factor with
  an impossible assignment equals a constant factor with the other order of variables (`C132_order_unsound`), and the answer depends
  on which factor is asked (`C132_order_asymmetric`). The same function written with different defaults is declared different
  (`C132_default_violated`).
* C133 `Gaussian._cov_exists` says yes for an indefinite precision, though the log weight is then NaN (`C133_indefinite`).
* C134 `FactorizedFactor.is_vacuous` raises `NotImplementedError` for a constant times a density (`C134_mixed_raises`).
* C135 `SparseCategorical.weight` and `normalize` ignore a default other than -inf: the weight is too small, and the normalised
  factor sums to more than one, unless every assignment has an entry (`C135_weight_gap`, `C135_normalize_partial`).
