# Formal model of pyrichlet in Lean 4 — design

## 1. Approach

The library is numeric Python code driven by a random generator.  We model every
public method as a total Lean function that mirrors the Python branch by branch:

* **Numbers.** Floating point is replaced by exact arithmetic in an arbitrary linearly
  ordered field `K` (so theorems hold for `ℚ`, where the model is executable, and for `ℝ`).
  Functions that need `log`/`exp` are modelled over `ℝ`.  Rounding, overflow and underflow are
  *not* modelled.  `-inf` log values are modelled (`WithBot`), `nan` is modelled where the
  control flow looks at it (ELBO loop, BetaBernoulli probabilities).
* **Randomness.** The generator is an `Oracle`: for each stream position and request parameters
  it returns an arbitrary value of the legal range (`Oracle.Legal`).  Every theorem is universally
  quantified over oracles, i.e. over every possible outcome of every draw.  Parameter checks of numpy
  (`a<=0`, `p` outside `[0,1]`, ...) are modelled as `ValueError`.  Because an oracle answer is
  indexed by the request parameters, "the result is the oracle's answer to Beta(a,b)" states which
  distribution is sampled.
* **Objects and exceptions.** A method is `Oracle → State × pos → Except PyErr α × (State × pos)`: the state
  survives an exception, as in Python.  A user history is a list of operations; exceptions do
  not end the history.
* **Loops.** `for` loops are folds; the one unbounded loop (`tail`) takes a fuel argument and returns a
  distinguished outcome if the fuel runs out; theorems say "for every fuel, if it returns …",
  and termination/divergence are separate theorems about the existence of sufficient fuel.
* **External code** (numpy array primitives, scipy densities, k-means) is a parameter or a small
  executable definition with its documented meaning, listed in the trusted base.

Modules: `Verif/Py.lean` (Python/numpy primitives), `Verif/Rng.lean` (oracle, method monad),
`Verif/Model/*` (the code), `Verif/Spec.lean` (independent specifications),
`Verif/Lemmas/*` (proof engineering), `Verif/Props/*` (the property theorems, prefixed with the
property id, each with a non-vacuity example).

When the code violates a property, the theorem that proves the negation (for all inputs of a region, or with a
concrete witness) is kept next to a `_partial` theorem giving the part which holds; see section 4.

## 2. Plan per property

| id | modelled | proof |
|---|---|---|
| C01 | all ten weight classes, operation histories | invariant by induction over the history |
| C02 | `w = v * cumprod(concat([1], 1-v[:-1]))` in seven classes | list induction, closed product formula |
| C03 | `complete` of all classes | prefix lemma of the stick map + invariant |
| C04 | `complete` of all classes | length computation; refuted for the finite classes and BetaBernoulli(fresh, 1) |
| C05 | `random(n)` | length computation; refuted where the code ignores n |
| C06 | `fit`+`random()` | bincount length = max+1 |
| C07 | `random` after `fit` | counts are permutation invariant |
| C08 | DP `random`, `complete` | counting specification of `bincount` and of the reversed cumsum |
| C09 | PY constructor, `random`, `complete`, `fit_variational` | closed form of requested parameters; refuted for alpha ≤ 0, and the discount shift |
| C10 | Geometric `random`, `complete` | closed form |
| C11 | Dirichlet `random` | closed form, iff for the error |
| C12 | Frequency `random` | closed form |
| C13 | DP, PY, BetaInBeta | equality of results and generator positions |
| C14 | BetaInBeta x=1 | refuted (unfitted draw is all zero; complete mixes two p); partial for fitted `random` |
| C15 | BetaInDirichlet | loop invariant on inner tables; refuted for one group and a>0 |
| C16 | BetaInDirichlet a=0 | invariant over histories |
| C17 | BetaBinomial | invariant |
| C18 | BetaBernoulli | index computation; refuted for complete(1) on a fresh object |
| C19 | BetaBernoulli `_random_bernoullis` with extended reals for `beta(0,·)=inf` | refuted with witness; partial for p ∈ {0,1} |
| C20–C24 | base `tail` with fuel | induction on fuel; δ-bounded termination; explicit diverging stream |
| C25 | Geometric `tail` over ℝ | refuted for all p,x: the sum is ≤ x on a fresh structure |
| C26–C29 | base helpers | list lemmas |
| C30 | `fit`, `reset`, `random` | equality of outputs from two arbitrary states; refuted for BetaInDirichlet |
| C31, C32 | argument checks | case analysis |
| C33 | `weighting_log_likelihood` | induction on the stick list |
| C34–C40 | variational part of the weight models, digamma/loggamma as parameters | telescoping sums, refutations with witnesses |
| C41–C47, C59, C60, C63, C66, C67 | the Gibbs driver as a state machine over an abstract weight class, atoms and densities opaque | induction over iterations |
| C48–C51, C64, C65 | `_utils.py` | list lemmas, field identities |
| C52–C58, C68 | variational driver | softmax algebra over ℝ, loop invariant with nan |
| C61, C62 | casting and rng kinds | case analysis |
| C69 | densities | equality in dimension 1, refutation in dimension 2 |
| C70 | `random_p` decision table | case analysis |
| C71–C73 | `dirichlet_log_eppf`, `BetaInDirichlet` likelihood and urn | Gamma recursion, induction over the seating; mass conservation for the extra inner stick |
| C74, C77 | `weighting_log_likelihood` of nested models, objective of `random_p` | stick inversion (C33) |
| C75, C76 | draws of a fitted `BetaInBeta`, one by one | weakest preconditions |
| C83 | draws after `fit` have the posterior law | law of the sticks under `RandGen`; conjugacy of Beta and Dirichlet measures; stationarity of the Beta-Binomial step for the refutation |
| C84 | law of the sticks of the unfitted nested models | stationarity of the Beta-Binomial step; independence of a draw from the choices that fix its stream position (`Lemmas/PathLaw`); the stream positions of the urn (`Lemmas/UrnPath`) with C73 |
| C85 | law of the Gumbel-max trick and of the label update | race of uniform powers: `P(u_j < u_i^c_j for all j) = 1/(1 + sum c_j)` by one integral (`Lemmas/Race`); product measures and re-indexing of a stream (`Lemmas/Stream`) |
| C86 | slice and label update keeps the conditional law of the labels; false with the shift `eps` | integral of the kernel over the slice levels (`Lemmas/SliceLaw`: `slice_invariant`), product over the observations by independence, C85 for the labels, induction over the loop of `tail`; refutation on two equal weights |
| C87 | `variational_mean_w_j` as an expectation under the fitted law, and under the law of `random` | product of expectations of independent sticks (`Lemmas/StickMean`), telescoping for Dirichlet (`Lemmas/VarLaw`), C83 for the law of `random` |
| C88 | `variational_mean_log_w_j` as an integral; digamma is `logDeriv Γ` | derivative of the Beta integral under the integral sign, dominated by `4/a x^(-3a/4)` (`Lemmas/BetaLog`: `beta_log`), reflection of the Beta law |
| C89 | `variational_mean_log_q_w`, `variational_mean_log_p_w` as expected log-densities | `Lemmas/BetaCross`: expected log-density of one Beta law under another, Gibbs' inequality; exact differences for the wrong formulas.  The density of the Dirichlet law is the textbook formula (not derived from `dirichletLaw`) |
| C90 | `fit_variational` of the weight models against all probability measures | Gibbs variational principle (`Lemmas/VarOptimum`: `varCost_min`), exponential tilting of a product of Beta laws |
| C91 | `_update_variational_d` against the softmax | Gibbs' inequality for vectors; distance of `(e_j + eps) / sum` from `e_j / sum` |
| C92 | joint law of `random_assignment` | C26 for the label of each number, independence and uniform law of the generator (`RandGen`) |
| C93 | `posterior_norm_invw_params` as Bayes' rule; `log_likelihood_normal_invw`, `_theta_log_likelihood` (`Model/NormalInvW`, scipy's documented log-densities) | completing the square coordinate by coordinate; measurability of determinant and inverse; inverse-gamma integral for the normalisation in dimension one |
| C94 | one Gibbs iteration as a kernel on atoms, weights and labels (Dirichlet weights); invariance of the posterior | `Lemmas/GibbsRun` (the iteration returns), `Lemmas/GibbsKernel` (its law given the state: atoms at distinct positions of the stream, weights, labels as in C86), `Lemmas/Redraw` (redrawing the coordinates of occupied components from their conditional law), C82 and C93 for the two conjugate updates, `sum_labelKernel` for the labels |
| C95 | any number of Gibbs iterations of a stick-breaking mixture; invariance of the posterior of labels, infinitely many atoms and sticks | `Lemmas/StickRun` (the iteration for given draws: atoms drawn on demand, rounds of `tail`), `Lemmas/InfProd` (densities of infinite products, redrawing coordinates from a stopping time on), `Lemmas/StickLaw` (mean of an iteration: what the object does not store may be drawn later), `Lemmas/StickGibbs` (kernel, joint law, normalising constant), `Lemmas/StickClasses` (the two classes; sticks with divergent mean sum exhaust the unit) |
| C96 | `tail` returns with probability one | `Lemmas/TailAe` (`Feeds`: which stick a round appends; sticks that do not tend to 0 use up the mass), `Lemmas/TailFeeds` (the next stick of each class), `Lemmas/TailLaw` (their laws; urn and Bernoulli paths by conditioning on the countably many paths), `Lemmas/TailReach` (held sticks are positive almost surely), `Lemmas/TailOptim` (sticks whose `p` was drawn earlier or comes from an optimiser) |
| C97 | Gibbs iterations converge to the posterior law | `Lemmas/AltKernel` (a reversible idempotent kernel followed by a reversible one: mean-square convergence when only constants are fixed by both), `Lemmas/TailTrivial` (zero-one law), `Lemmas/GibbsErgodic` (the two halves of the iteration, their reversibility, the common fixed points), `Lemmas/GibbsLimit` (back to the iterates of C95) |
| C98 | The affinity matrix of saved states converges to posterior co-clustering probabilities | `Lemmas/ErgodicMean` (second moment of sums along a Markov operator whose correlations vanish), `Lemmas/GibbsAverage` (sums over saved states), `savedMean` follows the burn-in and subsample loop of `fit_gibbs` |
| C99, C100, C102 | `gibbs_map_pairplot`: panels, curves, colours, shared axes (`Model/Results`) | closed form of every figure (`Lemmas/PairplotFacts`: `pairplot_ok`), C48 and C49 for densities and labels; chain of `sharey` calls by induction on the column |
| C101 | the ellipses over ℝ (`Model/Ellipse`; `scipy.linalg.ldl` by what it returns) | `M Σ⁻¹ M = L Lᵀ` for `M = L √D Lᵀ`, two of the hundred angles decide |
| C103 | constructor of `DirichletDistribution` with its argument types (`Model/DirCtor`) | C11 and C35 on the new object |
| C104 | Gibbs iterations of finite mixtures, law of a state with the missing atoms filled in | `Lemmas/FinRun`, `Lemmas/FinLaw` (law of one iteration from a given state), `Lemmas/FinGibbs` (the posterior is kept), `Lemmas/FinClasses` (the two classes) |
| C105 | convergence from cold starts | `Lemmas/FinErgodic`, `Lemmas/FinLimit`: as C97, with `N` components |
| C106 | averages over saved states | `Lemmas/FinAverage`: as C98, with `N` components |
| C107 | C86 for `GeometricProcess` with its own `tail` | `Lemmas/GeoSlice` (what `tail` leaves); C86 for `p ≤ 1/2`; comparison of the kernel with and without the missing components for `p > 1/2` |
| C108 | `weighting_log_likelihood` of `BetaBinomial` and `BetaBernoulli` against the log-density of the chain | closed form of the loops as sums over indices |
| C109 | the score of a group in `_update_var_d` against the expectation of the log normal density under the normal-Wishart law | Bartlett form of the law on a product space, expectations of log determinant and quadratic form as integrals; positive definiteness of the updated matrices as an invariant of the iterations |
| C110 | `_e_q_log_p_x`, `_e_log_p_theta`, `_e_log_q_theta` against expectations under the normal-Wishart laws of the groups | textbook densities, closed forms of the integrals, algebra of weighted means and scatter matrices over lists |
| C111 | histories of `fit_gibbs` on data transformed by an affine map, and the Gibbs result methods at transformed points | simulation rules for the monad (`Mir`), equivariance of means, covariances and posterior parameters, Gaussian densities over ℝ |
| C112 | mixed histories of `fit_variational` and `fit_gibbs` on data moved rigidly, the lower bound and the variational result methods at moved points | simulation rules of C111, invariance of determinants, traces, norms and quadratic forms, responsibilities are not negative |
| C113 | `gibbs_eap_affinity_matrix(y)` and `gibbs_eap_spectral_consensus_cluster` after every history of fits | stored states are complete (C45), labels of `cluster` (C49), counting of equivalences |
| C114 | `var_eap_density` of proper groups is, up to the factor `sqrt(norm/det)`, the expected density under the fitted law; the law as in C109 | columns of Bartlett's matrix are independent; one Gaussian and one Gamma integral per column; product telescopes (`Lemmas/Predictive`); total mass by a scale mixture (`Lemmas/Normalised`) |
| C115 | `var_map_density` of proper groups is, up to the factor `sqrt(norm/det)`, the density at the mode of the fitted law | `log det A <= tr A / c - m + m log c` by eigenvalues (`Lemmas/WishartMode`); monotone, interior and two-ended Beta densities (`Lemmas/BetaMode`) |
| C116 | `fit_variational` of the rows in another order leaves the same groups, weights and bound, and every observation keeps its responsibilities | simulation with the map that reorders data, columns and stored matrix (`Lemmas/Reorder`) |
| C117 | `fit_variational` in other units leaves the same responsibilities, weights and flags; means and precisions are converted | simulation whose bound is carried up to a constant shift (`Lemmas/Units`) |
| C118 | densities and bound in other units: exact factors, right for one coordinate only (refuted otherwise) | calculation with the factor of the norm |
| C119 | fit_gibbs does not raise on legal input (refuted for a second cold fit of FrequencyWeighting, one row, BetaInDirichlet, BetaBernoulli) | total correctness of each step in the wp calculus with a robustness interface per weight class; induction over sessions |
| C120 | the Gibbs densities are densities, of mass the mean weight total, and `dim` marginalises (mass below one for the Dirichlet process; `y=None` with `dim=i` uses column 0) | invariants of weights and atoms over histories of fits; densities of finite mixtures as measures; marginals of normal laws |
| C121 | the prior is the one given, completed by the data of the *first* fit; the default is proper iff the observations span the space (never with n ≤ columns) | invariant over histories of both fits; sample covariance as an average over pairs; kernel of a linear map to fewer dimensions |
| C122 | arrays as objects: results, saved states and arguments are never written into, the value reading is exact; which arrays are shared with the caller | memory with addresses; every method as a family of traces indexed by branches and counts; invariant on who may share with whom |
| C123 | variational fits on legal input return; the bound is a number at every iteration | invariant: proper parameters and positive responsibilities; digamma, log-gamma and determinants are numbers there |
| C124 | iterations do not lower the evidence lower bound | Gibbs' inequality with the cost of `eps`; optimality of the fitted law of the weights (C90); explicit bound along a symmetric fit |
| C125 | a warm start of `fit_gibbs` continues the previous fit | iterations commute with changes of attributes they do not use (`Lemmas/Inert`); the recorded iterations split at multiples of the subsampling step; C41 for the refutations |
| C126 | a warm start of `fit_variational` continues the previous fit | iterations commute with changes of attributes they do not use; they are determined by the state, so two histories are prefixes of one sequence; comparison of the changes of the bound seen by the two loops |
| C127 | `init_groups` bounds the groups at the start of `fit_gibbs` | calculus of weakest preconditions over the start; ranks of k-means labels; quantile bound for random labels |
| C128 | the data sets are loaded with labels that belong to their rows | selection of columns computed for every width; filtering commutes with the projections |
| C129 | `fit_gibbs` and `fit_variational` do not overwrite each other's results | frame lemma for the fields written by each fit; the weight constants are stable under the sampler |
| C130 | the quick guide of the README works | composition: totality of the first fit, default prior proper, totality of the second fit, frame of C129; the first MAP state is complete because k-means labels cover the weights |
| C131 | `fit_gibbs` terminates with probability one | a calculus of runs that settle for all large bounds on the loop (`Lemmas/Ends.lean`), lifted from `tail` through the sampler to sessions; almost sure exhaustion of the sticks (C96) with one null set |
| C132 | `rejection_sample` draws from the density it is given | splitting off the first two draws of the stream (`Lemmas/StreamCons.lean`) gives a linear equation for the law; with `size` a linear system over the bands of a step function |
| C133 | Gibbs fits target the posterior for any number of columns | the inverse Wishart density in the coordinates `T`, `w`, `r` of `[[r + w'Tw, (Tw)'], [Tw, T]]` is normal times inverse gamma times inverse Wishart of one size less (`Lemmas/InvWishart.lean`); induction on the size; then C97, C98, C105, C106 |
| C134 | Process mixtures converge to the Chinese restaurant and Pitman-Yor posteriors over partitions | taking the first stick out gives a recursion over the set of blocks (`Lemmas/StickPartition.lean`); the closed form solves it and the solution is unique because the unbroken part tends to zero (`Lemmas/PYPartition.lean`); posterior by summing over labels that agree with the partition (`Lemmas/PartitionPost.lean`) |
| C135 | Finite mixtures converge to the Dirichlet-multinomial posterior over labels | induction on the observations with the conjugate update and the mean of a Dirichlet weight (`Lemmas/FinLabels.lean`); label switching by exchanging two components |
| C136 | The order of the observations does not matter for `fit_gibbs` | the kernels of an iteration are products over rows and functions of counts and sums (`Lemmas/GibbsOrder.lean`); induction over iterations and saved states |
| C137 | `gibbs_eap_density` of finite mixtures converges to the posterior predictive density | after an iteration all atoms are stored (`FullRun`), so a state is a point of the chain; averages of unbounded functions by cutting them off (`Lemmas/ErgodicSum.lean`); one more observation for the closed form |
| C138 | `gibbs_eap_affinity_matrix(y)` converges to the posterior probability of equal most probable components, not to the co-clustering probability | `savedRuns_average` for the indicator of equal choices (C113); a point and itself are always chosen alike (`alike_self`), while labels of two rows differ with positive posterior probability |
| C139 | A Gibbs iteration with geometric weights does not keep the posterior law of the labels | conjugacy of the Beta law and of the atoms turns the sum over start labels into an integral of C107's comparison; the exact kernel is invariant (`geo_exact`), the code's is larger on `p > 1/2` (`geoLow_lt`), which has positive probability |
| C140 | The EAP density of process mixtures lies below the posterior predictive density | the density of a state is the density of the components below the stopping time of `tail` (`density_stored`, `stepMean_seen`); its mean over the slice stream does not depend on the labels a step draws next (`held_shown`); each stopped sum is smaller than the full series (`shown_lt`); the full series times the mass of labels is the mass of the data with `x` appended (`stickMass_append`) |
| C141 | A saved state with k groups stores more than k/(k+1) | `tail` keeps the weights `random` returned as a prefix and leaves out at most the smallest slice level (`Growing`), so each level is below a stored weight (`Levels`, `updateWeights_levels`); this is carried through evaluation and saving (`iter_levels`, `run_levels`); labels are above their level (C46), so `k` times the missing mass is below the total (`groups_mul_lt`) |
| C142 | get_n_groups and get_n_theta describe the saved states | the keys of `theta` only grow by appending and are distinct, the three lists are extended together (`Ledger`, kept by every call of a fit, `run_ledger`); labels and weights by C46's step lemmas |
| C143 | gibbs_eap_density by component | every saved state holds an atom for each stored weight (C45), so the loop over states stops at the first with too few weights; the sums over states and components are exchanged; the number of weights of the finite classes is an invariant of all calls (`Sized`) |
| C144 | The mixture constructors | binding of keywords, `**kwargs`, weight model, base class; the values reaching each place are computed from one table of documented parameters, for every list of keywords (`construct_taken`, `construct_unknown`) |
| C145 | Negative components | the methods with an integer component (`Model/NegIndex`), shown equal to the other models for natural numbers; the weight at `-i` is computed from the parameters of every fit and compared with the weight at `k - i`; the group is the same, so the densities compare as the weights do |
| C146 | Negative components of `var_map_density` | as C145 (`Model/NegMode`), with the modes of the sticks: the loop over the earlier sticks is empty for a negative component, and with every first parameter above one, as after a fit of a Dirichlet process, it would have taken off something |
| C78, C82 | label update and inner sticks of a fitted `BetaInDirichlet` | weights of every state in closed form; Beta integrals of Mathlib; trace of the draw |
| C79 | chain and fitted sticks of `BetaBinomial` | trace of the draw, Bayes identity of Beta densities |
| C80, C81 | path and sticks of a fitted `BetaBernoulli` | trace of the path loop; conditional law by Beta integrals; refutation for every `0 < p < 1` |

## 3. Trusted base

**Kernel and axioms.** Lean 4.33.0's kernel, and Mathlib as compiled in the image.  Every theorem depends on no axiom other
than `propext`, `Classical.choice` and `Quot.sound` (all three standard); the project adds none.  There is no `sorry`, `admit`,
`native_decide`, `bv_decide`, `unsafe` or `implemented_by`.  Examples and witnesses on concrete numbers use `decide +kernel`, which
is checked by the kernel.

**The model is a hand translation.** That `Verif/Model/*` says what the Python says is not proved; each definition cites the lines it
translates.  The code was read, not executed.

**Idealisations** (each is also stated at the head of the module concerned):

* Exact arithmetic: no rounding, overflow or underflow.  `K` is any linearly ordered field; `GeometricProcess.tail` and the properties of
  `log`, `exp`, Gamma are over `ℝ`.  Minus infinity and nan are explicit values where the control flow or a property depends on them
  (`Option`, `WithBot`, `Fl`).
* `Oracle.Legal` (`Verif/Rng.lean`) is what is assumed of `np.random.Generator`: values lie in the closed support of the distribution; draws of
  `choice` and of the Gumbel trick have positive probability.  Except in the properties on laws (C83 on), nothing is assumed about independence or
  frequencies: statements about a distribution say *which parameters are requested*.
* `RandGen` (`Verif/RandGen.lean`) is what the properties on laws assume: the seeds of the stream positions are independent and identically distributed, an
  answer is a measurable function of its seed and the request, and has the law documented for `beta`, `binomial`, `uniform`, `dirichlet`, `choice`, and
  the softmax law for the Gumbel trick (which C85 derives from uniform numbers).  `RandGen.nonempty` (`Lemmas/RandGenExists.lean`) proves that such a generator exists.  The laws are those of calls made with fresh
  seeds from a fixed reachable state: conditional laws given the history.
* numpy and Python primitives in `Verif/Py.lean`, `Model/Float.lean`, `Model/Cast.lean`, `Model/MixUtils.lean` (`cumsum`, `cumprod`, `bincount`, slices,
  fancy indexing, `argmax`, `unique`, `np.array` of nested lists) have their documented meaning; parameter checks of the generator raise `ValueError`
  before drawing.
* Parameters of the theorems, hence arbitrary: `log`, `digamma`, `loggamma`, `exp` (with the laws a theorem needs as hypotheses, discharged over
  `ℝ` in `Lemmas/VarReal.lean`), scipy log-densities (`Dens`), Gaussian densities, `random_normal_invw`, k-means, `argsort`, spectral clustering.
* Arrays are values in all models but `Model/Memory.lean`. That module models only which array each name holds and which statements make, share or
  write into one (the contents computed are arbitrary), for all methods, and C122 proves from it that the value reading is exact. Trusted: the list of such
  statements in each method, and that a numpy expression makes a new array unless it is a plain name, an attribute or `np.asarray`/`to_numpy` of one.
* `scipy.optimize.minimize`, `quad` and `brentq` in `BetaInBeta.random_p` are one oracle answer: failure, or a number of `[0, 1]`. C96 also assumes that this answer depends measurably on what the optimiser is given.

**Modelled code** (`/repo/pyrichlet`):

| file | model |
|---|---|
| `weight_models/_base.py` | `Model/Base.lean` (all concrete methods; abstract ones are the fields of `WeightCore`) |
| `_dirichlet_process.py`, `_pitman_yor_process.py`, `_geometric_process.py` | `Model/DirichletProcess`, `PitmanYor`, `Geometric`, variational parts in `Model/Variational` |
| `_beta_in_beta.py` | `Model/BetaInBeta`, `Model/LogLik`, the likelihoods of lines 148-195 in `Model/Likelihood` |
| `_beta_in_dirichlet.py`, `_beta_bernoulli.py`, `_beta_binomial.py` | `Model/BetaInDirichlet`, `BetaBernoulli`, `BetaBinomial`, `LogLik`, `Likelihood` |
| `_dirichlet_distribution.py`, `_equal.py`, `_frequency.py` | `Model/Finite`, `Model/Variational` |
| `mixture_models/_base.py` | `Model/Gibbs` (constructor, Gibbs sampler, `gibbs_*`), `Model/VarFit` (variational algorithm, `var_*`, the whole object), `Model/Results` (spectral, pairplot, getters), `Model/NegIndex`, `Model/NegMode` (integer components of the density methods), `Model/Ellipse` (ellipses and colours of the pairplot), `Model/DirCtor` (constructor of `DirichletDistribution` with argument types), `Model/Cast` (conversion of observations) |
| all methods, only the sharing of arrays | `Model/Memory` |
| `mixture_models/_utils.py` | `Model/MixUtils`, the Wishart functions in `Model/VarFit` |
| `mixture_models/_*_mixture.py` | constructors with their keyword arguments: `Model/MixCtor`; generators: `Gens.mixture` in `Model/Cast` and the fields `nAttr`, `wst` of `GM` |
| `utils/_loaders.py` | `Model/Loaders` (which rows and columns of a csv file are returned; the cells are abstract) |
| `utils/functions.py`, `utils/validators.py` | `Model/LogLik`, `Model/Variational`, `Model/VarFit`, `Model/Likelihood`, `Model/Cast` |

**Not modelled:** `_version.py`, `versioneer.py`, `setup.py`, `docs/`; progress bars and the verbose options;
figure size, ticks, labels, grid and transparency of the pairplot; pickling; threads; subclassing by the user;
arrays of dtype object; data sets whose number of columns changes between two fits of one object.

## 4. Findings (code violates the property)

A `_refuted` theorem proves the negation in the model, for all inputs of the region named or with a witness; a `_partial` theorem next to it proves the
part that holds.  In short:

| id | what the code does | theorem |
|---|---|---|
| C02, C18 | a fresh `BetaBernoulli.complete(1)` raises `IndexError` and leaves a stick without weight | `C02_*`, `C18_*` |
| C03 | the finite classes redraw in `complete`; `BetaInBeta.complete` redraws `p`, so old and new sticks have different laws | `C03_*`, `C14_complete_refuted` |
| C04, C05, C06 | finite classes ignore the size; `BetaInDirichlet.complete` returns `None`; the fitted `BetaBinomial`, `BetaBernoulli`, `BetaInDirichlet` ignore a smaller size | `C04_*`, `C05_*` |
| C09 | `alpha <= 0` is accepted but cannot be drawn; stick `j` uses `j*pyd` instead of `(j+1)*pyd` (the variational part uses `j+1`) | `C09_*` |
| C14 | `BetaInBeta(x=1)` unfitted returns zeros for the default `p`; `complete` after `random` mixes two values of `p` | `C14_*` |
| C15 | `BetaInDirichlet` with a single label value and `a > 0` raises `ValueError` (`np.max` of an empty array) | `C15_*` |
| C19 | `BetaBernoulli` posterior: `beta(0, .) = inf` gives a nan probability, `ValueError` | `C19_*` |
| C21–C25 | a subclass may raise out of `tail`; the loop may not end; the geometric `tail` never reaches the requested mass on a fresh object and raises for `p = 0` | `C23_*`, `C25_*` |
| C27 | `random_assignment()` raises `AxisError` | `C27_refuted` |
| C30 | `BetaInDirichlet` does not forget `_d_base` | `C30_*` |
| C32 | `BetaInDirichlet`, `EqualWeighting`, `FrequencyWeighting` have no type check | `C32_*` |
| C35, C36 | off by one at `j = n` (`IndexError`); the geometric mean weight is `1` beyond the truncation | `C35_*`, `C36_*` |
| C37, C38, C39 | geometric `a + N - 1` and the missing factor `j`; Dirichlet `mean_log_w_j` uses `a_j + sum a`; `FrequencyWeighting` returns a frequency for a logarithm; wrong sign in `EqualWeighting` | `C37_*`, `C38_*`, `C39_*` |
| C43–C45, C47 | MAP with all likelihoods minus infinity is the last state; a cold refit keeps the old MAP and the old priors; the initial MAP state may lack atoms; `periods=0` means all | `C43_*` … `C47_*` |
| C52, C53 | an empty k-means group makes every responsibility nan, reported as converged; `var_converged` is never reset | `C52_empty_group_refuted`, `C53_*_refuted` |
| C54 | the ELBO uses the prior expectation in place of the entropy of the weights, so the two cancel | `C54_*_refuted` |
| C56–C58 | labels all 0 with weights of minus infinity; `full=True` on new data returns a matrix; default `dim` raises `TypeError`, an int `dim` `IndexError` | `C56_*`, `C57_*`, `C58_*` |
| C59, C60 | the pairplot raises `IndexError` before fitting; a failing cold fit wipes the saved states and leaves the flag | `C59_pairplot_refuted`, `C60_*` |
| C61, C62 | a pandas Series keeps one axis, three axes pass; negative seeds raise `ValueError`; with an int seed mixture and weights read the same stream | `C61_*`, `C62_*` |
| C65 | `rejection_sample` with a size re-evaluates the mask between the two refills: heights and points are mismatched | `C65_biased` |
| C68, C69 | `_update_var_theta` uses an inner product instead of an outer product and a scatter divided by `n_j`; the densities use the Frobenius norm for the determinant | `C68_*`, `C69_*` |
| C70 | `"rejection-sampling"` is accepted and always raises for `0 < x < 1` | `C70_refuted` |
| C72 | `dirichlet_log_eppf(0, .)` is nan, so the likelihood of a `BetaInDirichlet` with the default `a = 0` is always nan | `C72_refuted` |
| C74 | `BetaBernoulli(p=1)` counts only the first stick, `BetaBernoulli(p=0)` the common stick once per position, `BetaBinomial(n=0)` omits the first stick; `BetaInBeta(x=1)` raises, `BetaInDirichlet(a=0)` is nan | `C74_*_refuted` |
| C75 | `random(n)` with `n` larger than the labels need updates `p` again before drawing the appended sticks | `C75_refuted` |
| C76 | `random` discards the sticks before it fits `p` to them | `C76_forgets`, `C76_refuted` |
| C78 | the probability of a new inner label of `BetaInDirichlet` lacks the factor `alpha` | `C78_weights`, `C78_refuted` |
| C81 | `BetaBernoulli` updates its path with wrong odds, and never updates the last position | `C81_code`, `C81_last`, `C81_refuted` |
| C83 | `BetaBinomial(n >= 1)` draws the binomials from auxiliary Beta variables, not from the chain: with labels all 0 the mean of the first weight falls short of the posterior mean | `C83_betaBinomial_refuted` |
| C83 | `BetaInBeta(0 < x < 1)` with the default `p_method="geometric"` draws `p` from `Beta(a + n, b + sum d)`, the conditional law for geometric weights only: the weights do not have the posterior law, neither for the stored `p` nor for `p ~ Beta(a, b)` | `C83_betaInBeta_refuted`, `C83_betaInBeta_nested_refuted` |
| C83 | `BetaBernoulli` flips the coin of the largest label with the prior probability `p` (the loop ends before it): after `fit([1])` the mean of the first weight exceeds the posterior mean | `C83_betaBernoulli_refuted` |
| C83 | `BetaInBeta(x=1)` without labels uses the stored `p`, with labels it draws `p`: the law after `fit` is not the posterior of the law before | `C83_betaInBeta_one_refuted` |
| C83 | `BetaInDirichlet(a > 0)` with labels all 0: `random` raises, there is no draw | `C83_betaInDirichlet_refuted` |
| C86 | the slice levels are shifted by the machine epsilon; a level above all weights gives the label 0 whatever the data, so the sampler is only approximately invariant | `C86_refuted` |
| C87 | `GeometricProcess.variational_mean_w_j` is `m(1-m)^j` with the mean `m`, not the expected weight | `C87_geometric_refuted` |
| C89 | `variational_mean_log_p_w`: `DirichletProcess` counts `k` instead of `k - 1` factors `log alpha`; `PitmanYorProcess` has `loggamma(alpha + (j+1) d + 1)` for `loggamma(alpha + (j+1) d)`; `DirichletDistribution` multiplies by `sum(alpha) - 1` and uses `a_j + sum a` | `C89_*_refuted` |
| C90 | `GeometricProcess.fit_variational` starts the first Beta parameter at `a` plus the number of observations minus one | `C90_geometric_refuted` |
| C91 | `_update_variational_d` adds `eps` to every responsibility before it normalises | `C91_refuted` |
| C99 | the pairplot colours observations by renumbered labels and components by their own numbers: with an unused component below one in use, points get the curve and ellipse of another component | `C99_shown`, `C99_iff`, `C99_refuted` |
| C100 | `gibbs_map_pairplot` raises `TypeError` for one column and `IndexError` for exactly eleven groups (`max(grp) > 10` for `>= 10`); with more than ten groups colours repeat | `C100_one_column_refuted`, `C100_eleven_refuted`, `C100_colours_refuted` |
| C101 | the ellipses of the pairplot use `L √D Lᵀ` for a square root of `L D Lᵀ`: the dashed curve is not a contour unless the covariance is zero | `C101_iff`, `C101_refuted` |
| C103 | `DirichletDistribution` with a list `alpha` draws `len(alpha)` weights but `fit_variational` wants `n` rows (default 1); an `alpha` of another type (numpy float) leaves an object whose `random` raises `AttributeError` | `C103_list_refuted`, `C103_default_refuted`, `C103_type_refuted` |
| C107 | The Gibbs sampler of `GeometricProcess` mixtures is biased when `p > 1/2`: `tail` rounds down, components above the slice level are missing, labels move down too often | `C107_refuted` |
| C108 | `BetaBinomial.weighting_log_likelihood` pairs sticks with the wrong binomial variables and ignores the first stick; `BetaBernoulli.weighting_log_likelihood` adds the densities of the repeated sticks instead of the new ones | `C108_betaBinomial_value`, `C108_betaBinomial_refuted`, `C108_betaBernoulli_value`, `C108_betaBernoulli_refuted` |
| C109 | `e_log_norm_wishart` takes the Frobenius norm of the scale matrix where the expected log-determinant needs its determinant, so the scores are not the expected log-densities from dimension two on | `C109_gap`, `C109_iff`, `C109_refuted` |
| C110 | `_e_q_log_p_x` lacks the factors `n_j`: averages over the groups are added instead of sums; `_e_log_q_theta` halves the entropy of the Wishart law and has the sign of the dimension wrong | `C110_data`, `C110_data_refuted`, `C110_posterior`, `C110_posterior_refuted` |
| C112 | `fit_variational` depends on the orientation of the axes: `(x_bar - mu) @ (x_bar - mu)` in `_update_var_theta` is a number added to every entry of the scale matrix, so a reflection of one axis changes the responsibilities | `C112_exact`, `C112_reflection_refuted`, `C112_refuted` |
| C113 | `gibbs_eap_affinity_matrix(y)` and the consensus clustering raise `AxisError` for a single point; with the fitted data as `y` the matrix is not the one of the default `y=None`, although the documentation says the default uses the fitted data | `C113_one_refuted`, `C113_default_refuted` |
| C114 | `var_eap_density` is not the expected density from two coordinates on (norm for determinant, as C69), so it does not integrate to one; with `dim` it takes a block of the precision and the degrees of freedom of another dimension, which is not the marginal density | `C114_refuted`, `C114_total`, `C114_dim_refuted` |
| C114 | with Pitman-Yor weights `var_eap_density` of univariate data integrates to less than one after every fit: the last stick is not set to one, so the mean of what is left over belongs to no group | `C114_pitmanYor_mass_partial` |
| C114 | with geometric weights `var_eap_density` is not the expected density even for univariate data: the second group gets more than its expected contribution at every point, after every fit with two or more groups | `C114_geometric_refuted` |
| C115 | `var_map_density` is off by `sqrt(norm/det)` from two coordinates on; `variational_mode_w_j` raises "multimodal" when one Beta parameter is one and the other below one, a density with a single mode; `DirichletDistribution` takes the modes of the marginals, whose sum is below one from three components on | `C115_refuted`, `C115_raises_refuted`, `C115_dirichlet_refuted` |
| C118 | in other units `var_eap_density` and `var_map_density` are divided by `c` whatever the number of coordinates, and the bound changes by `k (m - 1) log c / 2` instead of falling by `n m log c` | `C118_density_refuted`, `C118_bound_refuted` |
| C119 | a second cold `fit_gibbs` of a FrequencyWeighting mixture raises `IndexError` (old weights are kept, fewer than clusters); one row always raises; BetaInDirichlet raises as soon as all observations share a group, BetaBernoulli for three groups | `C119_frequency_refuted`, `C119_single_row_refuted`, `C119_betaInDirichlet_refuted`, `C119_betaBernoulli_refuted` |
| C120 | the EAP density of a Dirichlet process mixture integrates to less than one; `gibbs_eap_density(dim=i)` without a query evaluates the marginal of coordinate `i` at column 0 of the training data | `C120_one_refuted`, `C120_dim_data_refuted` |
| C121 | the default prior keeps the mean and covariance of the first data set for later fits, and is improper (singular `psi_prior`) whenever there are no more observations than columns | `C121_second_refuted`, `C121_few_refuted` |
| C122 | `get_weights`/`random`/`complete`/`tail` hand out the live weights, `fit_variational`, `psi_prior` and data frames are kept without a copy, and `get_n_groups` etc. return lists that grow with later warm fits | `C122_weights_refuted`, `C122_matrix_refuted`, `C122_psi_refuted`, `C122_frame_refuted`, `C122_list_refuted` |
| C123 | `fit_variational` with `n_groups` different from the number of weights of a Dirichlet distribution raises AssertionError; equal observations with the default prior raise LinAlgError | `C123_groups_refuted`, `C123_equal_refuted` |
| C124 | the update of a group is not the best one given the responsibilities; the computed bound falls from one iteration to the next | `C124_groups_refuted`, `C124_bound_refuted` |
| C125 | each warm start of `fit_gibbs` throws away `burn_in` further iterations and restarts the subsampling, so the saved states are not those of a longer fit | `C125_burnIn_refuted`, `C125_subsample_refuted` |
| C126 | a warm start of `fit_variational` starts with bound `-inf`: it always makes at least two more iterations, also when the previous fit had converged, and stops later than a longer fit | `C126_seam_refuted`, `C126_further`, `C126_converged_refuted` |
| C127 | `init_groups` is ignored by k-means in the classes with `n`, does not bound random labels of an object fitted before, and is not what its documentation says | `C127_n_refuted`, `C127_random_refuted`, `C127_default`, `C127_only_kmeans_refuted` |
| C129 | `gibbs_eap_density()` and the other queries without points answer for the data of the last fit of either kind; `fit_gibbs(init_method="variational")` overwrites the variational results | `C129_default`, `C129_default_refuted`, `C129_start_refuted` |
| C130 | after `fit_gibbs(y, init_groups=2, init_method="random")` the call `gibbs_map_cluster()` may raise `KeyError`: a component with a weight but no observation has no parameters in the MAP state | `C130_random_refuted` |
| C132 | `rejection_sample` with a size does not draw from the density: a rejected height is compared with the next point before it is redrawn | `C132_sized_refuted`: 7/19 instead of 1/3 |
| C133 | with the default priors and rows in a hyperplane (two equal columns, say) every scale matrix handed to `invwishart.rvs` is singular | `C133_flat_refuted` |
| C134 | `PitmanYorProcess(pyd, alpha)` is the Pitman-Yor process with concentration `alpha - pyd`, since stick `j` uses `j*pyd` | `C134_prior_pitmanYor`, `C134_standard_refuted` |
| C140 | `gibbs_eap_density` of Dirichlet and Pitman-Yor process mixtures is biased downwards at every point, however many iterations are run: the stored weights sum to less than one and are not rescaled | `C140_eap_dirichletProcess`, `C140_eap_pitmanYor`, `C140_limit_dirichletProcess`, `C140_limit_pitmanYor` |
| C142 | `get_n_theta` counts the components for which an atom was ever drawn in the fit, not those in use: it never decreases and can exceed the number of stored weights | `C142_grows`, `C142_use_refuted` |
| C143 | `gibbs_eap_density(component=j)` raises `IndexError` or `KeyError` as soon as one saved state of a process mixture stores no weight for `j`, though other states give it weight; the components that can be asked for do not add up to the density | `C143_raises`, `C143_iff`, `C143_refuted` |
| C144 | `BetaInBetaMixture` and `BetaBinomialMixture` refuse the documented parameter `show_progress` with `TypeError`: they repeat the parameters of the base class and left this one out | `C144_progress_refuted` |
| C145 | `var_eap_density(component=-i)` takes the group from the end of the list but, for the Dirichlet, Pitman-Yor and geometric processes, a weight that belongs to no group (the mean of a stick, or the geometric weight divided by `(1-p)^k`), so the density returned is too large | `C145_*_refuted` |
| C146 | `var_map_density(component=-i)` takes the group from the end but, for the three processes, a weight that belongs to no group; with geometric weights it can exceed one, or be zero for the group which has all the mass | `C146_dirichletProcess_refuted`, `C146_py_weight`, `C146_geo_above_one`, `C146_geo_zero` |
