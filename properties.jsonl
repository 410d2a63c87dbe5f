{"id": "C01", "title": "Weights are always a sub-probability vector", "statement": "After any sequence of fit / reset / random / complete / tail / assignation_log_likelihood / random_assignment calls (including calls that raised), get_weights() on any weight model with valid hyper-parameters holds only non-negative numbers whose sum is at most 1.", "quantifier": "all ten weight models, all call histories, all label vectors, all values the random generator may return", "why_tests_cant": "Random draws and call orders are unbounded; a test fixes a seed and a handful of calls.", "anchors": ["pyrichlet/weight_models/_base.py:BaseWeight", "pyrichlet/weight_models/_dirichlet_process.py:DirichletProcess", "pyrichlet/weight_models/_pitman_yor_process.py:PitmanYorProcess", "pyrichlet/weight_models/_geometric_process.py:GeometricProcess", "pyrichlet/weight_models/_beta_in_beta.py:BetaInBeta", "pyrichlet/weight_models/_beta_in_dirichlet.py:BetaInDirichlet", "pyrichlet/weight_models/_beta_bernoulli.py:BetaBernoulli", "pyrichlet/weight_models/_beta_binomial.py:BetaBinomial", "pyrichlet/weight_models/_equal.py:EqualWeighting", "pyrichlet/weight_models/_frequency.py:FrequencyWeighting", "pyrichlet/weight_models/_dirichlet_distribution.py:DirichletDistribution"]}
{"id": "C02", "title": "Stick-breaking identity and left-over mass", "statement": "For the stick-breaking models, after a draw of n>=1 weights, weight j equals v[j] times the product of (1-v[i]) for i<j, and the mass not yet assigned, 1 - sum(w), equals the product of all (1-v[i]).", "quantifier": "all stick vectors v of any length in [0,1]; all draws of the seven stick-breaking models", "why_tests_cant": "Random draws and call orders are unbounded; a test fixes a seed and a handful of calls.", "anchors": ["pyrichlet/weight_models/_dirichlet_process.py:random,complete", "pyrichlet/weight_models/_pitman_yor_process.py:random,complete", "pyrichlet/weight_models/_geometric_process.py:complete", "pyrichlet/weight_models/_beta_in_beta.py:random,complete", "pyrichlet/weight_models/_beta_in_dirichlet.py:random,complete", "pyrichlet/weight_models/_beta_bernoulli.py:random,complete", "pyrichlet/weight_models/_beta_binomial.py:random,complete"]}
{"id": "C03", "title": "complete() only appends weights", "statement": "complete(n) keeps the weights already drawn (same realisation) and only appends new ones; calling it with n not larger than the current size changes nothing that get_weights() shows.", "quantifier": "every reachable state of a weight model, every n, every generator outcome", "why_tests_cant": "Random draws and call orders are unbounded; a test fixes a seed and a handful of calls.", "anchors": ["pyrichlet/weight_models/_base.py:BaseWeight.complete", "pyrichlet/weight_models/_dirichlet_process.py:complete", "pyrichlet/weight_models/_pitman_yor_process.py:complete", "pyrichlet/weight_models/_geometric_process.py:complete", "pyrichlet/weight_models/_beta_in_beta.py:complete", "pyrichlet/weight_models/_beta_in_dirichlet.py:complete", "pyrichlet/weight_models/_beta_bernoulli.py:complete", "pyrichlet/weight_models/_beta_binomial.py:complete", "pyrichlet/weight_models/_dirichlet_distribution.py:complete"]}
{"id": "C04", "title": "complete(n) returns at least n weights", "statement": "As documented on BaseWeight.complete, complete(n) returns an array with at least n weights (n a non-negative int).", "quantifier": "all weight models, all reachable states, all n", "why_tests_cant": "The failing models and sizes are corner cases that the sampled sizes of the test-suite never touch.", "anchors": ["pyrichlet/weight_models/_base.py:BaseWeight.complete", "pyrichlet/weight_models/_dirichlet_distribution.py:complete", "pyrichlet/weight_models/_equal.py:complete", "pyrichlet/weight_models/_frequency.py:complete", "pyrichlet/weight_models/_beta_in_dirichlet.py:complete", "pyrichlet/weight_models/_beta_bernoulli.py:complete"]}
{"id": "C05", "title": "random(n) returns exactly the requested number of weights", "statement": "random(n) with n>=1 returns exactly n weights, fitted or not, and get_size() is then n.", "quantifier": "all weight models, all reachable states, all n>=1, all label vectors", "why_tests_cant": "Random draws and call orders are unbounded; a test fixes a seed and a handful of calls.", "anchors": ["pyrichlet/weight_models/_dirichlet_process.py:random", "pyrichlet/weight_models/_pitman_yor_process.py:random", "pyrichlet/weight_models/_geometric_process.py:random", "pyrichlet/weight_models/_beta_in_beta.py:random", "pyrichlet/weight_models/_beta_in_dirichlet.py:random", "pyrichlet/weight_models/_beta_bernoulli.py:random", "pyrichlet/weight_models/_beta_binomial.py:random"]}
{"id": "C06", "title": "A draw after fit covers every fitted label", "statement": "After fit(d) with non-negative labels, a successful random() returns a vector that has an entry for each label of d, so indexing the weights with d never fails.", "quantifier": "all weight models, all label vectors, all generator outcomes", "why_tests_cant": "Random draws and call orders are unbounded; a test fixes a seed and a handful of calls.", "anchors": ["pyrichlet/weight_models/_dirichlet_process.py:random", "pyrichlet/weight_models/_pitman_yor_process.py:random", "pyrichlet/weight_models/_geometric_process.py:random", "pyrichlet/weight_models/_beta_in_beta.py:random", "pyrichlet/weight_models/_beta_in_dirichlet.py:random", "pyrichlet/weight_models/_beta_bernoulli.py:random", "pyrichlet/weight_models/_beta_binomial.py:random", "pyrichlet/weight_models/_frequency.py:random", "pyrichlet/weight_models/_dirichlet_distribution.py:random", "pyrichlet/weight_models/_equal.py:random", "pyrichlet/mixture_models/_base.py:_update_weights"]}
{"id": "C07", "title": "Order of the fitted labels is irrelevant", "statement": "fit(d) and fit(d') with d' any reordering of d lead to exactly the same weights (and the same exception, if any) from random() under the same generator.", "quantifier": "all weight models, all label vectors and permutations, all sizes, all generator outcomes", "why_tests_cant": "A test can only try a few permutations.", "anchors": ["pyrichlet/weight_models/_dirichlet_process.py:random", "pyrichlet/weight_models/_pitman_yor_process.py:random", "pyrichlet/weight_models/_geometric_process.py:random", "pyrichlet/weight_models/_beta_in_beta.py:random", "pyrichlet/weight_models/_beta_in_dirichlet.py:random", "pyrichlet/weight_models/_beta_bernoulli.py:random", "pyrichlet/weight_models/_beta_binomial.py:random", "pyrichlet/weight_models/_frequency.py:random", "pyrichlet/weight_models/_dirichlet_distribution.py:random"]}
{"id": "C08", "title": "Dirichlet process: posterior draws use the conjugate parameters", "statement": "After fit(d), random() draws the stick of component j from Beta(1 + #{i: d_i=j}, alpha + #{i: d_i>j}) for each j up to max(d), independently; without data each stick is drawn from Beta(1, alpha).", "quantifier": "all label vectors, all alpha>0, all sizes", "why_tests_cant": "Tests look at moments of a few draws with a fixed seed; a wrong count for one component of one partition is invisible.", "anchors": ["pyrichlet/weight_models/_dirichlet_process.py:DirichletProcess.random", "pyrichlet/weight_models/_dirichlet_process.py:DirichletProcess.complete"]}
{"id": "C09", "title": "Pitman-Yor: parameters accepted by the constructor can be drawn", "statement": "Whenever PitmanYorProcess(pyd, alpha) is constructed successfully with 0<=pyd<1, random and complete draw stick j from Beta(1-pyd+n_j, alpha+(j+1)*pyd+n_{>j}) (the Pitman-Yor law) and never fail with a generator parameter error.", "quantifier": "all accepted (pyd, alpha), all label vectors, all sizes", "why_tests_cant": "The failing region alpha<=0 and the shift of the discount are never sampled by the tests (alpha=1, pyd=0).", "anchors": ["pyrichlet/weight_models/_pitman_yor_process.py:PitmanYorProcess.__init__", "pyrichlet/weight_models/_pitman_yor_process.py:PitmanYorProcess.random", "pyrichlet/weight_models/_pitman_yor_process.py:PitmanYorProcess.complete", "pyrichlet/weight_models/_pitman_yor_process.py:PitmanYorProcess.fit_variational"]}
{"id": "C10", "title": "Geometric process: conjugate parameter and geometric decay", "statement": "random() redraws p from Beta(a+n, b+sum(d)), n the number of labels, and every weight is p*(1-p)^j for this p; complete() extends the same geometric sequence.", "quantifier": "all label vectors, a,b>0, all sizes, all histories", "why_tests_cant": "Random draws and call orders are unbounded; a test fixes a seed and a handful of calls.", "anchors": ["pyrichlet/weight_models/_geometric_process.py:GeometricProcess.random", "pyrichlet/weight_models/_geometric_process.py:GeometricProcess.complete"]}
{"id": "C11", "title": "Dirichlet distribution: conjugate parameters, and rejection of impossible labels", "statement": "random() draws from Dirichlet(alpha_j + #{i: d_i=j}); it raises ValueError exactly when some label is not smaller than the number of components, and then leaves the weights unchanged.", "quantifier": "all label vectors, all alpha vectors", "why_tests_cant": "Partitions and dimensions are unbounded.", "anchors": ["pyrichlet/weight_models/_dirichlet_distribution.py:DirichletDistribution.random"]}
{"id": "C12", "title": "Frequency weighting returns the empirical frequencies", "statement": "After fit(d), random() and complete(n) return exactly #{i: d_i=j}/n for each j up to max(d); without data they return 1/n for each of the n components.", "quantifier": "all label vectors, all n", "why_tests_cant": "Unbounded label vectors.", "anchors": ["pyrichlet/weight_models/_frequency.py:FrequencyWeighting.random", "pyrichlet/weight_models/_frequency.py:FrequencyWeighting.complete"]}
{"id": "C13", "title": "Nested models agree at their boundary parameters", "statement": "PitmanYorProcess(pyd=0) and BetaInBeta(x=0) return the same weights as DirichletProcess with the same alpha, for the same label vector, size and generator stream.", "quantifier": "all label vectors, sizes >=1, alpha>0, all generator streams", "why_tests_cant": "Equality in distribution cannot be tested; equality of streams can only be sampled.", "anchors": ["pyrichlet/weight_models/_pitman_yor_process.py:PitmanYorProcess.random", "pyrichlet/weight_models/_beta_in_beta.py:BetaInBeta.random", "pyrichlet/weight_models/_dirichlet_process.py:DirichletProcess.random"]}
{"id": "C14", "title": "BetaInBeta(x=1) is a geometric process", "statement": "With x=1 all sticks are equal, so the weights form a geometric sequence with p drawn from Beta(a+n, b+sum(d)), before and after fit and through complete().", "quantifier": "all histories of an x=1 object", "why_tests_cant": "Needs every history; tests only use x=0.", "anchors": ["pyrichlet/weight_models/_beta_in_beta.py:BetaInBeta.random", "pyrichlet/weight_models/_beta_in_beta.py:BetaInBeta.complete", "pyrichlet/weight_models/_beta_in_beta.py:BetaInBeta.random_p"]}
{"id": "C15", "title": "BetaInDirichlet never indexes outside its own tables and random() succeeds after fit", "statement": "For a>=0, alpha>0 and a non-negative label vector, random() after fit returns weights: the inner assignments always refer to an existing inner stick and no exception is raised.", "quantifier": "all label vectors, all histories, all generator outcomes", "why_tests_cant": "The failing label vectors (a single group with a>0) and the index invariant over all sampler paths cannot be enumerated.", "anchors": ["pyrichlet/weight_models/_beta_in_dirichlet.py:BetaInDirichlet.random", "pyrichlet/weight_models/_beta_in_dirichlet.py:BetaInDirichlet.complete"]}
{"id": "C16", "title": "BetaInDirichlet(a=0) is a geometric structure", "statement": "With a=0 every stick of a draw is the same number, so the weights are v*(1-v)^j.", "quantifier": "all histories with a=0, all generator outcomes", "why_tests_cant": "Random draws and call orders are unbounded; a test fixes a seed and a handful of calls.", "anchors": ["pyrichlet/weight_models/_beta_in_dirichlet.py:BetaInDirichlet.random", "pyrichlet/weight_models/_beta_in_dirichlet.py:BetaInDirichlet.complete"]}
{"id": "C17", "title": "BetaBinomial draws always use legal generator parameters", "statement": "For n>=0 and alpha>0 no history of fit / reset / random(size>=0) / complete(size>=0) / tail makes the generator reject a parameter, and v/binomials stay aligned.", "quantifier": "all histories and generator outcomes", "why_tests_cant": "Random draws and call orders are unbounded; a test fixes a seed and a handful of calls.", "anchors": ["pyrichlet/weight_models/_beta_binomial.py:BetaBinomial.random", "pyrichlet/weight_models/_beta_binomial.py:BetaBinomial.complete", "pyrichlet/weight_models/_beta_binomial.py:BetaBinomial._random_binomials"]}
{"id": "C18", "title": "BetaBernoulli: sticks change exactly where the Bernoulli path says so", "statement": "random(n) without data returns n weights whose stick j equals stick j-1 whenever bernoullis[j]=0; complete(n) on any object returns at least n weights.", "quantifier": "all histories, sizes and generator outcomes", "why_tests_cant": "Random draws and call orders are unbounded; a test fixes a seed and a handful of calls.", "anchors": ["pyrichlet/weight_models/_beta_bernoulli.py:BetaBernoulli.random", "pyrichlet/weight_models/_beta_bernoulli.py:BetaBernoulli.complete", "pyrichlet/weight_models/_beta_bernoulli.py:BetaBernoulli._random_bernoullis"]}
{"id": "C19", "title": "BetaBernoulli posterior draws never fail", "statement": "For 0<=p<=1, alpha>0 and non-negative labels, random() after fit returns weights without raising.", "quantifier": "all p, all label vectors, all generator outcomes", "why_tests_cant": "The failure needs p strictly between 0 and 1 and a particular Bernoulli path; the tests use p=1.", "anchors": ["pyrichlet/weight_models/_beta_bernoulli.py:BetaBernoulli._random_bernoullis", "pyrichlet/weight_models/_beta_bernoulli.py:BetaBernoulli.random"]}
{"id": "C20", "title": "tail(x) reaches the requested mass", "statement": "When tail(x) of the base class returns, the sum of the weights is at least x (documented: greater than x), and the returned array is get_weights().", "quantifier": "all weight models using the base tail, all states, all x in [0,1), all generator outcomes", "why_tests_cant": "Random draws and call orders are unbounded; a test fixes a seed and a handful of calls.", "anchors": ["pyrichlet/weight_models/_base.py:BaseWeight.tail"]}
{"id": "C21", "title": "tail(x) rejects x outside [0,1) without side effects", "statement": "tail(x) raises ValueError exactly when x>=1 or x<0, and then neither the object nor the generator has changed.", "quantifier": "all x, all states", "why_tests_cant": "Boundary quantification over all states.", "anchors": ["pyrichlet/weight_models/_base.py:BaseWeight.tail", "pyrichlet/weight_models/_geometric_process.py:GeometricProcess.tail"]}
{"id": "C22", "title": "tail(x) draws no more weights than needed", "statement": "On a stick-breaking model, tail(x) appends weights one at a time and stops at the first length at which the mass x is reached; if the mass is already reached nothing is drawn.", "quantifier": "all states, x and generator outcomes", "why_tests_cant": "Random draws and call orders are unbounded; a test fixes a seed and a handful of calls.", "anchors": ["pyrichlet/weight_models/_base.py:BaseWeight.tail", "pyrichlet/weight_models/_dirichlet_process.py:complete", "pyrichlet/weight_models/_pitman_yor_process.py:complete"]}
{"id": "C23", "title": "tail(x) terminates", "statement": "tail(x) returns for every x in [0,1).", "quantifier": "all generator streams", "why_tests_cant": "Termination for every stream is not observable by running; a diverging stream needs an infinite run.", "anchors": ["pyrichlet/weight_models/_base.py:BaseWeight.tail", "pyrichlet/weight_models/_dirichlet_process.py:complete"]}
{"id": "C24", "title": "Truncation by tail is lossless for the slice sampler", "statement": "After tail(1 - m), any weight the same realisation could ever add later (by further complete/tail calls) is at most m; so components outside the truncation can never exceed a slice level u_i >= m.", "quantifier": "all stick-breaking models, all states, all later extensions", "why_tests_cant": "Random draws and call orders are unbounded; a test fixes a seed and a handful of calls.", "anchors": ["pyrichlet/weight_models/_base.py:BaseWeight.tail", "pyrichlet/mixture_models/_base.py:_update_weights", "pyrichlet/mixture_models/_base.py:_d_log_likelihood_vector"]}
{"id": "C25", "title": "GeometricProcess.tail reaches the requested mass", "statement": "GeometricProcess.tail(x) returns weights whose sum is greater than x, as BaseWeight.tail documents.", "quantifier": "all p in (0,1), x in [0,1)", "why_tests_cant": "The test-suite never checks the sum; the deficit is small for typical values.", "anchors": ["pyrichlet/weight_models/_geometric_process.py:GeometricProcess.tail"]}
{"id": "C26", "title": "random_assignment is exact inverse-CDF sampling", "statement": "Each value of random_assignment(n) is an index j < get_size() with cum[j-1] < u <= cum[j] for the normalised cumulative weights; a component of weight 0 is never chosen when u>0.", "quantifier": "all weight vectors with positive sum, all uniforms u in [0,1)", "why_tests_cant": "Range over all weights and all uniforms.", "anchors": ["pyrichlet/weight_models/_base.py:BaseWeight.random_assignment", "pyrichlet/weight_models/_base.py:get_normalized_cumulative_weights"]}
{"id": "C27", "title": "random_assignment() with its default argument returns one assignment", "statement": "random_assignment() (size=None) returns an assignment.", "quantifier": "all states", "why_tests_cant": "No test calls it; shown for every state.", "anchors": ["pyrichlet/weight_models/_base.py:BaseWeight.random_assignment"]}
{"id": "C28", "title": "Normalised weights are a probability vector", "statement": "If the weights have positive sum, get_normalized_weights() sums to 1, keeps the ratios, and get_normalized_cumulative_weights() is non-decreasing and ends at 1.", "quantifier": "all weight vectors", "why_tests_cant": "Range over all weight vectors.", "anchors": ["pyrichlet/weight_models/_base.py:get_normalized_weights", "pyrichlet/weight_models/_base.py:get_normalized_cumulative_weights"]}
{"id": "C29", "title": "assignation_log_likelihood is the sum of the log weights of the labels", "statement": "assignation_log_likelihood(d) first completes the structure to cover max(d) and returns sum_i log w[d_i] (minus infinity iff a label has weight 0); it does not depend on the order of d and keeps the weights already drawn.", "quantifier": "all states, label vectors, generator outcomes", "why_tests_cant": "Random draws and call orders are unbounded; a test fixes a seed and a handful of calls.", "anchors": ["pyrichlet/weight_models/_base.py:BaseWeight.assignation_log_likelihood"]}
{"id": "C30", "title": "A draw depends only on the fitted labels, not on the past", "statement": "random() after fit(d) gives the same weights as on a fresh object with the same hyper-parameters and generator state, whatever calls came before; reset() restores prior draws.", "quantifier": "all histories, all label vectors", "why_tests_cant": "Random draws and call orders are unbounded; a test fixes a seed and a handful of calls.", "anchors": ["pyrichlet/weight_models/_base.py:fit,reset", "pyrichlet/weight_models/_dirichlet_process.py:random", "pyrichlet/weight_models/_pitman_yor_process.py:random", "pyrichlet/weight_models/_geometric_process.py:random", "pyrichlet/weight_models/_beta_binomial.py:random", "pyrichlet/weight_models/_beta_bernoulli.py:random", "pyrichlet/weight_models/_beta_in_dirichlet.py:random", "pyrichlet/weight_models/_frequency.py:random", "pyrichlet/weight_models/_dirichlet_distribution.py:random"]}
{"id": "C31", "title": "Undetermined size is rejected", "statement": "random() without size on an unfitted (or reset) infinite model raises ValueError and changes nothing.", "quantifier": "the seven infinite models, all states with no labels", "why_tests_cant": "All histories that end with no labels.", "anchors": ["pyrichlet/weight_models/_dirichlet_process.py:random", "pyrichlet/weight_models/_pitman_yor_process.py:random", "pyrichlet/weight_models/_geometric_process.py:random", "pyrichlet/weight_models/_beta_in_beta.py:random", "pyrichlet/weight_models/_beta_in_dirichlet.py:random", "pyrichlet/weight_models/_beta_bernoulli.py:random", "pyrichlet/weight_models/_beta_binomial.py:random"]}
{"id": "C32", "title": "Sizes of the wrong type are rejected", "statement": "complete(size) with a size that is not an int (or None) raises TypeError and leaves the weights unchanged.", "quantifier": "all states, all wrongly typed sizes", "why_tests_cant": "All states.", "anchors": ["pyrichlet/weight_models/_base.py:BaseWeight.complete", "pyrichlet/weight_models/_dirichlet_process.py:random,complete", "pyrichlet/weight_models/_equal.py:complete", "pyrichlet/weight_models/_frequency.py:complete", "pyrichlet/weight_models/_beta_in_dirichlet.py:complete"]}
{"id": "C33", "title": "weighting_log_likelihood inverts the stick-breaking map", "statement": "DirichletProcess/PitmanYorProcess.weighting_log_likelihood recovers from the weights exactly the sticks that produced them and returns the sum of their Beta log-densities, as long as no earlier stick equals 1.", "quantifier": "all stick vectors of any length", "why_tests_cant": "Range over all stick vectors.", "anchors": ["pyrichlet/weight_models/_dirichlet_process.py:weighting_log_likelihood", "pyrichlet/weight_models/_pitman_yor_process.py:weighting_log_likelihood", "pyrichlet/weight_models/_beta_in_beta.py:weighting_log_likelihood"]}
{"id": "C34", "title": "DP variational mean weights form a probability vector", "statement": "After fit_variational with k groups, variational_mean_w_j(j) is non-negative, 0 for j>=k, and sums to exactly 1 over j<k.", "quantifier": "all k>=1, all variational assignment matrices with non-negative entries, alpha>0", "why_tests_cant": "All matrices of all sizes.", "anchors": ["pyrichlet/weight_models/_dirichlet_process.py:fit_variational", "pyrichlet/weight_models/_dirichlet_process.py:variational_mean_w_j"]}
{"id": "C35", "title": "Dirichlet variational mean weights form a probability vector and out-of-range components have weight 0", "statement": "After fit_variational, variational_mean_w_j sums to 1 over the n components and variational_mean_w_j(j) is 0 for every j>=n.", "quantifier": "all n, alpha>0, all assignment matrices, all j", "why_tests_cant": "Boundary index j=n is not tested.", "anchors": ["pyrichlet/weight_models/_dirichlet_distribution.py:fit_variational", "pyrichlet/weight_models/_dirichlet_distribution.py:variational_mean_w_j"]}
{"id": "C36", "title": "Pitman-Yor and geometric variational mean weights are bounded by 1 in total and 0 beyond the truncation", "statement": "variational_mean_w_j(j) of PitmanYorProcess and GeometricProcess is non-negative, sums to at most 1 over the truncation, and is 0 for every j at or beyond it.", "quantifier": "all k, all assignment matrices, all j", "why_tests_cant": "Boundary indices are not tested.", "anchors": ["pyrichlet/weight_models/_pitman_yor_process.py:variational_mean_w_j", "pyrichlet/weight_models/_geometric_process.py:variational_mean_w_j"]}
{"id": "C37", "title": "Variational update agrees with the exact posterior on hard assignments", "statement": "If the variational assignment matrix is the indicator matrix of a label vector d, the fitted variational parameters are exactly the parameters random() uses after fit(d).", "quantifier": "all label vectors, all four conjugate models", "why_tests_cant": "All label vectors.", "anchors": ["pyrichlet/weight_models/_dirichlet_process.py:fit_variational", "pyrichlet/weight_models/_dirichlet_distribution.py:fit_variational", "pyrichlet/weight_models/_pitman_yor_process.py:fit_variational", "pyrichlet/weight_models/_geometric_process.py:fit_variational"]}
{"id": "C38", "title": "Variational expected log-likelihood of assignments is the weighted sum of expected log weights", "statement": "variational_mean_log_p_d__w(q) equals sum_j (sum_i q[j,i]) * variational_mean_log_w_j(j).", "quantifier": "all weight models with variational support, all matrices", "why_tests_cant": "All matrices.", "anchors": ["pyrichlet/weight_models/_dirichlet_process.py:variational_mean_log_p_d__w", "pyrichlet/weight_models/_pitman_yor_process.py:variational_mean_log_p_d__w", "pyrichlet/weight_models/_geometric_process.py:variational_mean_log_p_d__w", "pyrichlet/weight_models/_equal.py:variational_mean_log_p_d__w", "pyrichlet/weight_models/_frequency.py:variational_mean_log_p_d__w", "pyrichlet/weight_models/_dirichlet_distribution.py:variational_mean_log_p_d__w"]}
{"id": "C39", "title": "Variational expected log weights are those of the fitted distribution", "statement": "variational_mean_log_w_j(j) is E[log w_j] under the fitted variational distribution: for the Dirichlet digamma(a_j)-digamma(sum a), for stick-breaking the sum of the Beta expectations.", "quantifier": "all parameters", "why_tests_cant": "All parameters; the tests check only convergence.", "anchors": ["pyrichlet/weight_models/_dirichlet_distribution.py:variational_mean_log_w_j", "pyrichlet/weight_models/_dirichlet_process.py:variational_mean_log_w_j", "pyrichlet/utils/functions.py:mean_log_beta"]}
{"id": "C40", "title": "Variational mode weights lie in [0,1]", "statement": "variational_mode_w_j(j) for j below the truncation either raises ValueError('multimodal distribution') or returns a number in [0,1] that is the product of the modes of the Beta factors.", "quantifier": "all parameters, all j", "why_tests_cant": "All parameters.", "anchors": ["pyrichlet/weight_models/_dirichlet_process.py:variational_mode_w_j", "pyrichlet/weight_models/_dirichlet_distribution.py:variational_mode_w_j", "pyrichlet/weight_models/_pitman_yor_process.py:variational_mode_w_j", "pyrichlet/weight_models/_geometric_process.py:variational_mode_w_j"]}
{"id": "C41", "title": "Number of saved Gibbs states", "statement": "A cold fit_gibbs with total_iter T, burn_in B and subsample_steps s>=1 performs T-B recorded iterations and saves exactly ceil((T-B)/s) states; get_sim_params, get_n_groups, get_n_theta and the divisor of the affinity matrix all have that count; warm starts add the same number again.", "quantifier": "all T,B,s, all data, all sequences of cold and warm fits", "why_tests_cant": "All iteration settings and histories.", "anchors": ["pyrichlet/mixture_models/_base.py:fit_gibbs", "pyrichlet/mixture_models/_base.py:_save_params"]}
{"id": "C42", "title": "Gibbs EAP affinity matrix is the average co-clustering matrix", "statement": "gibbs_eap_affinity_matrix() has entry (i,j) equal to the fraction of saved states in which observations i and j share a group; it is symmetric, has unit diagonal and entries in [0,1].", "quantifier": "all runs, all numbers of saved states, warm starts included", "why_tests_cant": "All runs.", "anchors": ["pyrichlet/mixture_models/_base.py:_save_params", "pyrichlet/mixture_models/_base.py:gibbs_eap_affinity_matrix"]}
{"id": "C43", "title": "MAP bookkeeping keeps the best visited state", "statement": "During a fit the stored MAP log-likelihood never decreases and the stored MAP parameters are those of a visited state whose log-likelihood is at least that of every visited state (the first such one).", "quantifier": "all sequences of log-likelihood values incl. minus infinity", "why_tests_cant": "All likelihood sequences.", "anchors": ["pyrichlet/mixture_models/_base.py:_update_map_params", "pyrichlet/mixture_models/_base.py:fit_gibbs"]}
{"id": "C44", "title": "A cold fit forgets the previous fit", "statement": "fit_gibbs(y2, warm_start=False) starts over: MAP results and data-derived priors come from this fit only.", "quantifier": "all pairs of fits", "why_tests_cant": "Needs a relation between two arbitrary fits.", "anchors": ["pyrichlet/mixture_models/_base.py:_initialize_gibbs_params", "pyrichlet/mixture_models/_base.py:_initialize_common_params", "pyrichlet/mixture_models/_base.py:_update_map_params"]}
{"id": "C45", "title": "Every stored state can be evaluated", "statement": "Every state in get_sim_params() and the MAP state holds an atom for each of its weights, so gibbs_eap_density, gibbs_map_density, gibbs_map_cluster never fail with a missing atom.", "quantifier": "all runs", "why_tests_cant": "All runs; the failing case needs the initial state to stay the MAP.", "anchors": ["pyrichlet/mixture_models/_base.py:_get_run_params", "pyrichlet/mixture_models/_base.py:_update_d", "pyrichlet/mixture_models/_base.py:gibbs_map_density", "pyrichlet/mixture_models/_utils.py:mixture_density"]}
{"id": "C46", "title": "Sampled assignments respect the slice", "statement": "After each Gibbs step every observation is assigned to a component j below the current truncation with w_j > u_i, provided some component is above its slice level.", "quantifier": "all steps of all runs", "why_tests_cant": "All runs.", "anchors": ["pyrichlet/mixture_models/_base.py:_update_d", "pyrichlet/mixture_models/_base.py:_d_log_likelihood_vector", "pyrichlet/mixture_models/_utils.py:gumbel_max_sampling"]}
{"id": "C47", "title": "EAP density averages exactly the requested saved states", "statement": "gibbs_eap_density(periods=p) is the mean of the mixture density over the last min(p, saved) states; periods=None uses all.", "quantifier": "all numbers of saved states, all p>=0", "why_tests_cant": "Boundary p=0 and p>saved.", "anchors": ["pyrichlet/mixture_models/_base.py:gibbs_eap_density"]}
{"id": "C48", "title": "Mixture density decomposes into components", "statement": "mixture_density(x) equals the sum over components of mixture_density(x, component=j), each being w_j times the Gaussian density, and is non-negative.", "quantifier": "all weights, atoms, numbers of points", "why_tests_cant": "All inputs.", "anchors": ["pyrichlet/mixture_models/_utils.py:mixture_density"]}
{"id": "C49", "title": "cluster() returns contiguous labels of the most probable component", "statement": "Two points share a label iff they have the same most probable component (lowest index on ties); labels are exactly 0..m-1; the uncertainty is 1 - max responsibility, in [0, 1-1/k].", "quantifier": "all weights, atoms, numbers of points >=2", "why_tests_cant": "All inputs.", "anchors": ["pyrichlet/mixture_models/_utils.py:cluster", "pyrichlet/mixture_models/_base.py:gibbs_map_cluster"]}
{"id": "C50", "title": "k-means labels are renamed by decreasing cluster size", "statement": "kmeans_cluster_size_biased returns a relabelling of the k-means partition (same partition) in which label 0 is a largest cluster and sizes are non-increasing in the label, labels contiguous from 0.", "quantifier": "all label vectors returned by k-means, every valid argsort", "why_tests_cant": "All partitions and tie patterns.", "anchors": ["pyrichlet/mixture_models/_utils.py:kmeans_cluster_size_biased"]}
{"id": "C51", "title": "Normal-inverse-Wishart update is coherent under batching and reordering", "statement": "posterior_norm_invw_params(y1+y2, prior) equals updating with y1 and then with y2; it does not depend on the order of observations; lambda and nu grow by the number of observations; psi never decreases (as a quadratic form).", "quantifier": "all non-empty batches, any dimension, any prior with lambda>0", "why_tests_cant": "All batches and dimensions.", "anchors": ["pyrichlet/mixture_models/_utils.py:posterior_norm_invw_params", "pyrichlet/mixture_models/_base.py:_update_atoms"]}
{"id": "C52", "title": "Variational responsibilities are probability vectors", "statement": "After each variational iteration each column of var_d has strictly positive entries summing to 1; hence log(var_d) in the ELBO is finite.", "quantifier": "all data, all k, all iterations", "why_tests_cant": "All inputs.", "anchors": ["pyrichlet/mixture_models/_base.py:_update_var_d", "pyrichlet/mixture_models/_base.py:_e_log_q_d"]}
{"id": "C53", "title": "fit_variational stops within total_iter iterations and var_converged is truthful", "statement": "fit_variational performs at most total_iter iterations; var_converged is True afterwards iff the ELBO change fell to tol or below before the iteration limit.", "quantifier": "all ELBO sequences (including nan), all tol, all sequences of fits", "why_tests_cant": "All ELBO sequences.", "anchors": ["pyrichlet/mixture_models/_base.py:fit_variational"]}
{"id": "C54", "title": "The ELBO contains the weight terms", "statement": "The ELBO used for convergence adds E[log p(w)] and subtracts E[log q(w)] of the weight model.", "quantifier": "all weight models and states", "why_tests_cant": "The value is only used through differences; no test inspects it.", "anchors": ["pyrichlet/mixture_models/_base.py:_calc_elbo", "pyrichlet/mixture_models/_base.py:_e_loq_q_w", "pyrichlet/mixture_models/_base.py:_e_log_p_w"]}
{"id": "C55", "title": "Variational affinity matrix", "statement": "var_eap_affinity_matrix() is symmetric, entries in [0,1], positive semi-definite, entry (i,j) being the probability that i and j fall in the same group under independent draws from the columns of var_d.", "quantifier": "all var_d", "why_tests_cant": "All matrices.", "anchors": ["pyrichlet/mixture_models/_base.py:var_eap_affinity_matrix"]}
{"id": "C56", "title": "Variational MAP labels do not depend on the normalisation used", "statement": "var_map_cluster(y) returns for each observation the first index with the largest unnormalised log responsibility, always < var_k; subtracting the column mean, exponentiating, adding eps and normalising do not change it.", "quantifier": "all scores, all k", "why_tests_cant": "All score matrices.", "anchors": ["pyrichlet/mixture_models/_base.py:var_map_cluster", "pyrichlet/mixture_models/_base.py:_update_var_d"]}
{"id": "C57", "title": "var_map_cluster(full=True) returns labels and uncertainties of one shape", "statement": "With full=True the second value is, for each observation, 1 - probability of its label, both for the fitted data and for new data.", "quantifier": "all data", "why_tests_cant": "Shape mismatch only for new data; not tested.", "anchors": ["pyrichlet/mixture_models/_base.py:var_map_cluster"]}
{"id": "C58", "title": "Density queries work with their default arguments", "statement": "After fit_variational, var_eap_density() and var_map_density() return one density value per observation with default arguments and for an int dim.", "quantifier": "all fitted states", "why_tests_cant": "No test calls them this way; shown for every state.", "anchors": ["pyrichlet/mixture_models/_base.py:var_map_density", "pyrichlet/mixture_models/_base.py:var_eap_density"]}
{"id": "C59", "title": "Results cannot be read before fitting", "statement": "Each gibbs_* result method raises NotFittedError until fit_gibbs has completed, each var_* method until fit_variational has completed; a failed fit does not set the flag.", "quantifier": "all call histories", "why_tests_cant": "All histories including failed fits.", "anchors": ["pyrichlet/mixture_models/_base.py:gibbs_eap_density", "pyrichlet/mixture_models/_base.py:gibbs_map_density", "pyrichlet/mixture_models/_base.py:gibbs_eap_affinity_matrix", "pyrichlet/mixture_models/_base.py:gibbs_map_cluster", "pyrichlet/mixture_models/_base.py:var_eap_density", "pyrichlet/mixture_models/_base.py:var_map_density", "pyrichlet/mixture_models/_base.py:var_map_cluster"]}
{"id": "C60", "title": "A fit that raises leaves earlier results usable", "statement": "If fit_gibbs raises, the results of the previous successful fit are still returned by the result methods.", "quantifier": "all failing calls after a successful fit", "why_tests_cant": "Crash points are not enumerable by tests.", "anchors": ["pyrichlet/mixture_models/_base.py:fit_gibbs", "pyrichlet/mixture_models/_base.py:_initialize_gibbs_params"]}
{"id": "C61", "title": "Observation casting", "statement": "Lists and 1-d arrays become a column of observations, 2-d inputs keep their shape, a scalar query becomes a single observation, a pandas Series is accepted like a 1-d array; anything else raises TypeError.", "quantifier": "all input kinds and shapes", "why_tests_cant": "Kinds x shapes.", "anchors": ["pyrichlet/mixture_models/_base.py:_initialize_common_params", "pyrichlet/mixture_models/_base.py:_cast_observations"]}
{"id": "C62", "title": "rng argument", "statement": "None and ints give a fresh generator, an existing Generator is used as is (shared between mixture and weights), anything else raises TypeError; two objects built with the same int seed produce the same stream.", "quantifier": "all argument kinds", "why_tests_cant": "All kinds.", "anchors": ["pyrichlet/utils/validators.py:rng_parser"]}
{"id": "C63", "title": "Constructor rejects a burn-in that leaves no iterations", "statement": "BaseGaussianMixture raises AssertionError exactly when total_iter <= burn_in; otherwise fit_gibbs saves at least one state (s>=1).", "quantifier": "all T,B,s", "why_tests_cant": "All settings.", "anchors": ["pyrichlet/mixture_models/_base.py:BaseGaussianMixture.__init__", "pyrichlet/mixture_models/_base.py:fit_gibbs"]}
{"id": "C64", "title": "Gumbel-max picks only possible components", "statement": "gumbel_max_sampling returns for each column an index below the number of rows, the index of a maximal perturbed log-probability, and never one with log-probability minus infinity while another is finite.", "quantifier": "all log-probability matrices, all finite Gumbel noise", "why_tests_cant": "All matrices.", "anchors": ["pyrichlet/mixture_models/_utils.py:gumbel_max_sampling"]}
{"id": "C65", "title": "rejection_sample returns points under the curve", "statement": "rejection_sample returns only points x with an independent uniform height y <= f(x).", "quantifier": "all f, all draws, all sizes", "why_tests_cant": "All draws.", "anchors": ["pyrichlet/mixture_models/_utils.py:rejection_sample"]}
{"id": "C66", "title": "Complete-data log-likelihood is the sum over observations", "statement": "The log-likelihood used for the MAP equals sum_i [log N(y_i; atom of d_i) + log w_{d_i}].", "quantifier": "all assignments, weights, atoms", "why_tests_cant": "All assignments.", "anchors": ["pyrichlet/mixture_models/_base.py:_run_log_likelihood", "pyrichlet/mixture_models/_base.py:_y_log_likelihood", "pyrichlet/weight_models/_base.py:assignation_log_likelihood"]}
{"id": "C67", "title": "Atoms persist and are only redrawn for occupied components", "statement": "In a Gibbs step each occupied component gets one new atom drawn from the posterior of exactly its own observations; atoms of empty components are unchanged; get_n_theta() never decreases within a run.", "quantifier": "all steps of all runs", "why_tests_cant": "All runs.", "anchors": ["pyrichlet/mixture_models/_base.py:_update_atoms", "pyrichlet/mixture_models/_base.py:_save_params", "pyrichlet/mixture_models/_base.py:_d_log_likelihood_vector"]}
{"id": "C68", "title": "Variational atom update equals the conjugate update on hard assignments", "statement": "With an indicator var_d the variational parameters of a non-empty group are the posterior_norm_invw_params of its observations (precision being the inverse of psi).", "quantifier": "all data, all dimensions", "why_tests_cant": "All data.", "anchors": ["pyrichlet/mixture_models/_base.py:_update_var_theta", "pyrichlet/mixture_models/_utils.py:posterior_norm_invw_params"]}
{"id": "C69", "title": "Gaussian and Student-t densities use the determinant of the precision", "statement": "density_normal(x, mu, P) is sqrt(det P/(2 pi)^dim) exp(-(x-mu)'P(x-mu)/2) and density_students_t the multivariate t density; e_log_norm_wishart is E log det.", "quantifier": "all dimensions and positive definite precisions", "why_tests_cant": "Tests are one-dimensional, where norm and determinant coincide.", "anchors": ["pyrichlet/utils/functions.py:density_normal", "pyrichlet/utils/functions.py:density_students_t", "pyrichlet/mixture_models/_utils.py:e_log_norm_wishart"]}
{"id": "C70", "title": "The documented p_method choices of BetaInBeta can be used", "statement": "Every p_method accepted by the constructor can be used by random() after fit for every x in [0,1].", "quantifier": "all accepted methods, all x", "why_tests_cant": "Methods x x-regimes x data.", "anchors": ["pyrichlet/weight_models/_beta_in_beta.py:_validate_params", "pyrichlet/weight_models/_beta_in_beta.py:random_p"]}
{"id": "C71", "title": "dirichlet_log_eppf is the law of the Chinese restaurant process", "statement": "exp(dirichlet_log_eppf(alpha, sizes)) is the probability of a partition with these block sizes under the Chinese restaurant process with parameter alpha; it is symmetric in the blocks, satisfies the addition rule and sums to one over all partitions of n observations.", "quantifier": "all alpha > 0, all partitions, all n", "why_tests_cant": "Totals over all partitions (Bell numbers) and all alpha.", "anchors": ["pyrichlet/utils/functions.py:dirichlet_log_eppf"]}
{"id": "C72", "title": "BetaInDirichlet.weighting_log_likelihood is the log-density of the sticks", "statement": "weighting_log_likelihood() is the log-probability of the pattern of ties of the sticks under the Chinese restaurant process with parameter a plus the Beta(1, alpha) log-densities of the distinct sticks.", "quantifier": "all a >= 0, alpha > 0, all stick vectors", "why_tests_cant": "All patterns of ties and all lengths.", "anchors": ["pyrichlet/weight_models/_beta_in_dirichlet.py:weighting_log_likelihood", "pyrichlet/utils/functions.py:dirichlet_log_eppf"]}
{"id": "C73", "title": "Sticks of an unfitted BetaInDirichlet follow the Polya urn", "statement": "The pattern of ties of the sticks returned by random(n) before fitting has the law of the Chinese restaurant process with parameter a, and each distinct stick is one Beta(1, alpha) draw.", "quantifier": "all n, a > 0, all patterns, all generators", "why_tests_cant": "A law on all patterns of all sizes; the urn is started with an extra inner stick.", "anchors": ["pyrichlet/weight_models/_beta_in_dirichlet.py:random", "pyrichlet/weight_models/_beta_in_dirichlet.py:complete"]}
{"id": "C74", "title": "Nested weight models have the same log-likelihood at their boundary parameters", "statement": "At the parameters where a weight model is the Dirichlet process (PitmanYor pyd=0, BetaInBeta x=0, BetaBernoulli p=1, BetaBinomial n=0) or the geometric process (BetaInBeta x=1, BetaBernoulli p=0, BetaInDirichlet a=0) weighting_log_likelihood() agrees with that model on the same weights.", "quantifier": "all weights, all lengths, all remaining parameters", "why_tests_cant": "Agreement of functions on all weights.", "anchors": ["pyrichlet/weight_models/*:weighting_log_likelihood"]}
{"id": "C75", "title": "Given p, the sticks of a fitted BetaInBeta have the conjugate parameters", "statement": "random(size) after fit draws stick j from Beta(1 + x/(1-x) p + #{d=j}, alpha + x/(1-x)(1-p) + #{d>j}) with one p for all sticks of the call.", "quantifier": "all histories, 0<x<1, all labels, sizes and p_methods", "why_tests_cant": "All labels and sizes; which p a stick used is not observable from one draw.", "anchors": ["pyrichlet/weight_models/_beta_in_beta.py:random", "pyrichlet/weight_models/_beta_in_beta.py:complete"]}
{"id": "C76", "title": "The p_method choices that fit p use the sticks held", "statement": "With p_method max-likelihood or inverse-sampling, p is fitted to the sticks the object holds when random() or complete() is called.", "quantifier": "all histories, labels, generators and optimiser answers", "why_tests_cant": "The optimiser is opaque to a test.", "anchors": ["pyrichlet/weight_models/_beta_in_beta.py:random_p", "pyrichlet/weight_models/_beta_in_beta.py:random"]}
{"id": "C77", "title": "The objective for p of BetaInBeta is its weighting_log_likelihood", "statement": "The function of p that random_p maximises or integrates equals weighting_log_likelihood() of the object with that p, whenever the object holds sticks and x<1.", "quantifier": "all histories, all p, all Beta log-densities", "why_tests_cant": "Two computations of one function, for all histories.", "anchors": ["pyrichlet/weight_models/_beta_in_beta.py:random_p", "pyrichlet/weight_models/_beta_in_beta.py:weighting_log_likelihood"]}
{"id": "C78", "title": "The inner labels of BetaInDirichlet are updated with their full conditional law", "statement": "random() after fit updates the inner label of every position with probabilities proportional to: number of other positions with the label times x^A (1-x)^B for its stick x; for a new label, a times the mean of x^A (1-x)^B under the Beta(1, alpha) law of a new stick.", "quantifier": "all states, positions, labels, alpha>0, a>0", "why_tests_cant": "The probabilities of the label draw are internal to the call and not observable; a frequency test would need the exact conditional law in every state.", "anchors": ["pyrichlet/weight_models/_beta_in_dirichlet.py:random", "pyrichlet/mixture_models/_utils.py:gumbel_max_sampling"]}
{"id": "C79", "title": "BetaBinomial draws the chain it documents, and its fitted sticks have the conjugate parameters", "statement": "Unfitted, random(n) draws binomial counts and sticks as the chain z_j ~ Binomial(n, v_{j-1}), v_j ~ Beta(1+z_j, alpha+n-z_j); complete continues the chain from the last stick; after fit, stick j is drawn from Beta(1+#{d=j}+z_j+z_{j+1}, alpha+#{d>j}+(n-z_j)+(n-z_{j+1})), which is the conditional law of the stick given its two counts and the labels.", "quantifier": "all histories, labels, sizes, n>=0, alpha>0", "why_tests_cant": "Which parameters a stick was requested with is not visible from outside; all label vectors and histories.", "anchors": ["pyrichlet/weight_models/_beta_binomial.py:random", "pyrichlet/weight_models/_beta_binomial.py:complete"]}
{"id": "C80", "title": "The sticks of a fitted BetaBernoulli are conjugate given its path", "statement": "random() after fit draws one stick per run of positions without a change, from Beta(1+A, alpha+B) with A and B the numbers of labels at and beyond the positions of the run; unfitted draws and complete draw the changes from Bernoulli(p), and new sticks from Beta(1, alpha).", "quantifier": "all histories, labels and sizes", "why_tests_cant": "The path is internal; the parameters requested are not visible from outside.", "anchors": ["pyrichlet/weight_models/_beta_bernoulli.py:random", "pyrichlet/weight_models/_beta_bernoulli.py:complete"]}
{"id": "C81", "title": "The path of a fitted BetaBernoulli is updated with its full conditional law", "statement": "random() after fit draws for every position j>=1 whether it starts a new stick with its conditional probability given the labels and the rest of the path, the sticks integrated out.", "quantifier": "all histories, labels, 0<=p<=1, alpha>0", "why_tests_cant": "The probabilities are internal to the call; a frequency test would need the exact conditional law for every label vector.", "anchors": ["pyrichlet/weight_models/_beta_bernoulli.py:_random_bernoullis"]}
{"id": "C82", "title": "The inner sticks of a fitted BetaInDirichlet have the conjugate parameters given the inner labels", "statement": "random() after fit redraws the stick of inner label c from Beta(1+A, alpha+B), with A and B the numbers of fitted labels equal to and larger than the positions that hold inner label c when the call starts; sticks added by the label update are drawn from Beta(1, alpha); the sticks returned are those of the new inner labels and the weights their stick-breaking image.", "quantifier": "all histories, labels, generators, every draw that returns", "why_tests_cant": "The inner labels and the parameters requested are not visible from outside; all histories.", "anchors": ["pyrichlet/weight_models/_beta_in_dirichlet.py:random"]}
{"id": "C83", "title": "After fit, random draws from the posterior law of the weights", "statement": "The law of the weights that random() returns on an object holding labels is the posterior (Bayes' rule, labels drawn independently with the weights) of the law of the weights that an object with the same parameters and no labels returns.", "quantifier": "all histories, labels, sizes, hyper-parameters; every generator whose answers are independent with the documented laws", "why_tests_cant": "An equality of probability laws on vectors of every length; a simulation can only compare a few moments at a few parameter values.", "anchors": ["pyrichlet/weight_models/_dirichlet_process.py:random", "pyrichlet/weight_models/_pitman_yor_process.py:random", "pyrichlet/weight_models/_geometric_process.py:random", "pyrichlet/weight_models/_dirichlet_distribution.py:random", "pyrichlet/weight_models/_beta_in_beta.py:random", "pyrichlet/weight_models/_beta_binomial.py:random"]}
{"id": "C84", "title": "Sticks of an unfitted nested weight model are marginally Beta(1, alpha), with the documented joint law", "statement": "For BetaBinomial, BetaBernoulli and BetaInDirichlet without labels, every stick of random(n) has the law Beta(1, alpha), whatever the parameter n, p or a. For BetaInDirichlet the pattern of ties of the sticks is a Chinese restaurant process with parameter a and the distinct values are independent Beta(1, alpha) given it. For BetaBernoulli each stick after the first is new with probability p, independently, else equal to the one before, and the distinct values are independent Beta(1, alpha).", "quantifier": "all histories without fit, all sizes and positions, all hyper-parameters; every generator whose answers are independent with the documented laws", "why_tests_cant": "An equality of probability laws for sticks of every index; the stream positions of the draws are themselves random.", "anchors": ["pyrichlet/weight_models/_beta_binomial.py:random", "pyrichlet/weight_models/_beta_bernoulli.py:random", "pyrichlet/weight_models/_beta_in_dirichlet.py:random"]}
{"id": "C85", "title": "Labels are drawn with the conditional probabilities of the slice sampler", "statement": "With independent uniform numbers, the Gumbel-max routine returns index i of a column of log-probabilities with probability exp(logp_i)/sum_j exp(logp_j), for every column with a finite entry; the columns are drawn independently. Hence, given weights, atoms and slice levels, the label update of a Gibbs step draws the labels independently, label j of observation i with probability proportional to the density of y_i under component j if its weight exceeds the slice level of i, and zero otherwise.", "quantifier": "all numbers of rows and columns, all log-probabilities including minus infinity, all weight models, all states from which the update runs and in which every observation has a possible component", "why_tests_cant": "A test only compares frequencies; the statement is an equality of probabilities for all inputs.", "anchors": ["pyrichlet/mixture_models/_utils.py:gumbel_max_sampling", "pyrichlet/mixture_models/_base.py:BaseGaussianMixture.fit_gibbs"]}
{"id": "C86", "title": "The slice and label update keeps the conditional law of the labels", "statement": "Given the weights and the atoms, if the labels of the observations follow their conditional law (probability proportional to the product over the observations of the weight of the label times the density of the observation under its component), then after the second half of a Gibbs step - new slice levels, completion of the weights, new labels - they still follow this law.", "quantifier": "all weight models, sequences of weights and atoms, densities including zero, numbers of observations from two, and label vectors; the levels and the Gumbel noise are random", "why_tests_cant": "Stationarity is an equality between laws on an infinite set of label vectors; a test can only run a chain and compare frequencies.", "anchors": ["pyrichlet/mixture_models/_base.py:BaseGaussianMixture.fit_gibbs"]}
{"id": "C87", "title": "Variational mean weights are expectations under the fitted distribution", "statement": "After fit_variational, variational_mean_w_j(j) is the expectation of weight j under the fitted distribution of the weights (independent Beta sticks, the last one equal to one for DirichletProcess; Dirichlet; p(1-p)^j with p Beta distributed). For the 0/1 matrix of labels it is also the expectation of weight j of the vector that random(k) draws after fit(labels), except the last component of DirichletProcess, whose expectation is smaller.", "quantifier": "all matrices with non-negative entries, all parameters, all components, all histories of calls before random", "why_tests_cant": "An expectation over all random outcomes, for all matrices and parameters.", "anchors": ["pyrichlet/weight_models/_dirichlet_process.py:variational_mean_w_j", "pyrichlet/weight_models/_pitman_yor_process.py:variational_mean_w_j", "pyrichlet/weight_models/_geometric_process.py:variational_mean_w_j", "pyrichlet/weight_models/_dirichlet_distribution.py:variational_mean_w_j"]}
{"id": "C88", "title": "Variational expected log weights are integrals of the log weight", "statement": "After fit_variational, variational_mean_log_w_j(j) is the integral of log w_j with respect to the fitted distribution of the weights, with digamma the logarithmic derivative of the Gamma function; mean_log_beta(a, b) is E log x for x ~ Beta(a, b).", "quantifier": "all matrices with non-negative entries, all positive parameters, all components", "why_tests_cant": "An integral over all weights, for all matrices and parameters.", "anchors": ["pyrichlet/utils/functions.py:mean_log_beta", "pyrichlet/weight_models/_dirichlet_process.py:variational_mean_log_w_j", "pyrichlet/weight_models/_pitman_yor_process.py:variational_mean_log_w_j", "pyrichlet/weight_models/_geometric_process.py:variational_mean_log_w_j", "pyrichlet/weight_models/_dirichlet_distribution.py:variational_mean_log_w_j"]}
{"id": "C89", "title": "The weight terms of the variational bound are expected log-densities", "statement": "variational_mean_log_q_w is the expectation, under the fitted distribution, of the log-density of the fitted distribution, and variational_mean_log_p_w that of the log-density of the prior; hence variational_mean_log_p_w - variational_mean_log_q_w is minus a Kullback-Leibler divergence and never positive.", "quantifier": "all matrices with non-negative entries, all parameters", "why_tests_cant": "An integral over all weights, for all matrices and parameters.", "anchors": ["pyrichlet/weight_models/_dirichlet_process.py:variational_mean_log_p_w", "pyrichlet/weight_models/_dirichlet_process.py:variational_mean_log_q_w", "pyrichlet/weight_models/_pitman_yor_process.py:variational_mean_log_p_w", "pyrichlet/weight_models/_pitman_yor_process.py:variational_mean_log_q_w", "pyrichlet/weight_models/_geometric_process.py:variational_mean_log_p_w", "pyrichlet/weight_models/_geometric_process.py:variational_mean_log_q_w", "pyrichlet/weight_models/_dirichlet_distribution.py:variational_mean_log_p_w", "pyrichlet/weight_models/_dirichlet_distribution.py:variational_mean_log_q_w"]}
{"id": "C90", "title": "fit_variational finds the distribution of the weights closest to the posterior", "statement": "The distribution of the weights fitted by fit_variational(q) maximises E log p(d|w) - KL(q(w)||p(w)), where label d_i equals j with probability q[j,i], among all probability distributions of the weights, and is the only maximiser (the documented minimisation of the Kullback-Leibler divergence).", "quantifier": "all matrices with non-negative entries, all parameters, all competing probability measures", "why_tests_cant": "A comparison with every probability measure, for all matrices and parameters.", "anchors": ["pyrichlet/weight_models/_base.py:fit_variational", "pyrichlet/weight_models/_dirichlet_process.py:fit_variational", "pyrichlet/weight_models/_pitman_yor_process.py:fit_variational", "pyrichlet/weight_models/_geometric_process.py:fit_variational", "pyrichlet/weight_models/_dirichlet_distribution.py:fit_variational"]}
{"id": "C91", "title": "Responsibilities are the optimal ones given weights and atoms", "statement": "Each variational step of fit_variational on a mixture sets the responsibilities of every observation to the maximiser of the evidence lower bound given the fitted weights and atoms, which is the softmax of expected log weight plus expected log-density.", "quantifier": "all fitted states, all data, any dimension and number of groups, all competing probability vectors", "why_tests_cant": "A comparison with every probability vector, for all scores.", "anchors": ["pyrichlet/mixture_models/_base.py:_update_variational_d"]}
{"id": "C92", "title": "random_assignment draws independent labels with the normalised weights", "statement": "The n labels returned by random_assignment(n) are independent, and each equals j with probability w_j / sum(w).", "quantifier": "all weight models, all states with non-negative weights with positive sum, all n", "why_tests_cant": "A joint probability law, for all states and sizes.", "anchors": ["pyrichlet/weight_models/_base.py:random_assignment"]}
{"id": "C93", "title": "Atoms are drawn from their posterior distribution given the observations of their component", "statement": "For every occupied component, a Gibbs step draws mean and covariance from the normal-inverse-Wishart distribution whose density is proportional to the prior density times the normal likelihood of the observations of that component; the factor does not depend on mean and covariance, and as laws the drawn one is the prior reweighted with the likelihood.", "quantifier": "any dimension, all data and labels, all priors with positive lambda, all means and covariances with positive determinant, all reference measures", "why_tests_cant": "An identity between densities at every mean and covariance, in every dimension.", "anchors": ["pyrichlet/mixture_models/_utils.py:posterior_norm_invw_params", "pyrichlet/mixture_models/_utils.py:log_likelihood_normal_invw", "pyrichlet/mixture_models/_base.py:_update_atoms", "pyrichlet/mixture_models/_base.py:_theta_log_likelihood"]}
{"id": "C94", "title": "A Gibbs step leaves the posterior distribution of atoms, weights and labels invariant", "statement": "For a mixture with Dirichlet distributed weights: if atoms, weights and labels are distributed as the posterior given the data (prior times likelihood, normalised) and a Gibbs iteration is made, without the machine-epsilon shift of the slice variables, then the iteration returns with probability one and the new atoms, weights and labels are again distributed as the posterior. Keeping the atoms of empty components is correct.", "quantifier": "all numbers of components, data sets with at least two observations, positive Dirichlet parameters, atom priors conjugate to the observation density (in particular normal observations with one coordinate and the normal-inverse-Wishart prior), measurable sets", "why_tests_cant": "An equality of probability measures on a continuous state space; simulation only sees it up to Monte Carlo error.", "anchors": ["pyrichlet/mixture_models/_base.py:_gibbs_step", "pyrichlet/mixture_models/_base.py:_update_atoms", "pyrichlet/mixture_models/_base.py:_update_weights", "pyrichlet/mixture_models/_base.py:_update_d", "pyrichlet/weight_models/_dirichlet_distribution.py:random"]}
{"id": "C95", "title": "Gibbs iterations of a Dirichlet process mixture leave the posterior distribution invariant and terminate", "statement": "For a mixture with infinitely many components whose weights come from DirichletProcess or PitmanYorProcess: if labels, atoms and sticks are distributed as the posterior given the data (prior times likelihood, normalised), then after any number of Gibbs iterations, without the machine-epsilon shift of the slice variables, they are again distributed as the posterior; atoms and sticks that the object does not store count as drawn from their priors. Drawing missing atoms on demand, keeping atoms of empty components, and extending the weights only until they cover the slice levels are therefore all correct. From every state, an iteration returns with probability one.", "quantifier": "all data sets with at least two observations, alpha > 0 (and 0 <= pyd < 1), atom priors conjugate to the observation density (in particular normal observations with one coordinate and the normal-inverse-Wishart prior), all numbers of iterations, all measurable functions of labels, atoms and sticks", "why_tests_cant": "An equality of probability measures on an infinite dimensional state space, for a loop without a bound on its number of rounds.", "anchors": ["pyrichlet/mixture_models/_base.py:_gibbs_step", "pyrichlet/mixture_models/_base.py:_update_atoms", "pyrichlet/mixture_models/_base.py:_update_weights", "pyrichlet/mixture_models/_base.py:_update_d", "pyrichlet/weight_models/_base.py:tail", "pyrichlet/weight_models/_dirichlet_process.py:random", "pyrichlet/weight_models/_dirichlet_process.py:complete", "pyrichlet/weight_models/_pitman_yor_process.py:random", "pyrichlet/weight_models/_pitman_yor_process.py:complete"]}
{"id": "C96", "title": "tail(x) terminates with probability one", "statement": "If the random generator draws from the documented Beta, Binomial and categorical distributions, then with probability one tail(x) returns for every x in [0, 1): only finitely many sticks are appended before the weights sum to at least x. The exceptional event of probability zero depends neither on x nor on what was done with the object before.", "quantifier": "all x in [0, 1), all histories of calls, all valid hyperparameters of DirichletProcess, PitmanYorProcess (discount >= 0), BetaInDirichlet, BetaBinomial, BetaBernoulli, and BetaInBeta", "why_tests_cant": "An almost sure statement about a loop without a bound on its number of rounds; a run that does not end looks like a slow one.", "anchors": ["pyrichlet/weight_models/_base.py:tail", "pyrichlet/weight_models/_dirichlet_process.py:complete", "pyrichlet/weight_models/_pitman_yor_process.py:complete", "pyrichlet/weight_models/_beta_in_dirichlet.py:complete", "pyrichlet/weight_models/_beta_in_beta.py:complete", "pyrichlet/weight_models/_beta_binomial.py:complete", "pyrichlet/weight_models/_beta_bernoulli.py:complete"]}
{"id": "C97", "title": "Gibbs iterations of a stick-breaking mixture converge to the posterior law", "statement": "For a Dirichlet process or Pitman-Yor mixture of normal observations, fit_gibbs started cold: whatever labels the initialisation produces, the law of labels, atoms and weights after k Gibbs iterations, without the machine-epsilon shift of the slice variables, converges to the posterior law given the data as k grows. In particular the probability that two observations share a component after k iterations tends to the posterior probability of that.", "quantifier": "all data sets with at least two observations (one coordinate), all labels at the start, all valid hyperparameters, every bounded measurable function of labels, atoms and sticks", "why_tests_cant": "A limit statement about laws on an infinite-dimensional space; long runs from a few starts cannot show that no start gets stuck.", "anchors": ["pyrichlet/mixture_models/_base.py:fit_gibbs", "pyrichlet/mixture_models/_base.py:_initialize_gibbs_params", "pyrichlet/mixture_models/_base.py:_gibbs_step", "pyrichlet/mixture_models/_base.py:_update_atoms", "pyrichlet/mixture_models/_base.py:_update_weights", "pyrichlet/mixture_models/_base.py:_update_d", "pyrichlet/weight_models/_base.py:tail"]}
{"id": "C98", "title": "The affinity matrix of saved states converges to posterior co-clustering probabilities", "statement": "For a Dirichlet process or Pitman-Yor mixture of normal observations, fit_gibbs started cold, and iterations without the machine-epsilon shift of the slice variables: as the number of saved states grows, the share of saved states in which two given observations have the same label - the entry of gibbs_eap_affinity_matrix() - converges in probability to the posterior probability that they share a component, whatever the burn-in, the subsample_steps and the labels at the start. The same holds for the average over the saved states of the number of groups and of every bounded function of the labels.", "quantifier": "all data sets with at least two observations (one coordinate), all labels at the start, all valid hyperparameters, all burn-in lengths, all subsample_steps >= 1, all pairs of observations", "why_tests_cant": "A law of large numbers for a dependent sequence on an infinite state space: no finite run can show convergence, and the exact posterior is not available for comparison.", "anchors": ["pyrichlet/mixture_models/_base.py:fit_gibbs", "pyrichlet/mixture_models/_base.py:_gibbs_step", "pyrichlet/mixture_models/_base.py:_save_params", "pyrichlet/mixture_models/_base.py:gibbs_eap_affinity_matrix"]}
{"id": "C99", "title": "In the pair plot observations have the colour of their own component", "statement": "In every panel of gibbs_map_pairplot(), the density curve or ellipse drawn in the colour of an observation is that of the component the observation belongs to (its most probable component in the best state).", "quantifier": "all fitted objects for which the figure is returned, all observations, all panels", "why_tests_cant": "The figure looks right whenever no component number below the largest one is unused, which is common in small examples; the failure needs a best state with a gap.", "anchors": ["pyrichlet/mixture_models/_base.py:gibbs_map_pairplot", "pyrichlet/mixture_models/_base.py:gibbs_map_cluster", "pyrichlet/mixture_models/_utils.py:cluster"]}
{"id": "C100", "title": "The pair plot can be drawn and gives each group its own colour", "statement": "Whenever gibbs_map_cluster() returns for the fitted data, gibbs_map_pairplot() returns a figure, and observations of different groups have different colours.", "quantifier": "all fitted objects, all numbers of columns and groups", "why_tests_cant": "The failures are at one column, at exactly eleven groups and at twelve groups or more, which example data do not reach.", "anchors": ["pyrichlet/mixture_models/_base.py:gibbs_map_pairplot"]}
{"id": "C101", "title": "The dashed curve of a group is the 95% contour of its normal law", "statement": "In a panel off the diagonal of gibbs_map_pairplot(), all points of the dashed curve of a group have the same density under the normal law of its component on the two columns: the squared Mahalanobis distance of each from the mean is the 95% quantile of the chi-squared law with two degrees of freedom.", "quantifier": "all means, all positive definite covariances, all angles drawn", "why_tests_cant": "The curve is an ellipse of the right centre and area, so that only a comparison of densities over all covariances tells it from the contour.", "anchors": ["pyrichlet/mixture_models/_base.py:gibbs_map_pairplot"]}
{"id": "C102", "title": "Contents of the panels of the pair plot", "statement": "A figure returned by gibbs_map_pairplot() has one panel for each pair of columns; a panel off the diagonal has one point for each observation in the colour of its label; in a panel of the diagonal every component of the best state is drawn exactly once, with the values of gibbs_map_density for that component, in the colour of its number if that is the label of a group and in black otherwise, unless its density is at most 1e-4 on the whole range; the black line is gibbs_map_density and exceeds the sum of the curves by at most 1e-4 for each component left out; the range covers all observations; in each row exactly the panels off the diagonal are connected by shared y axes and none is told twice to share.", "quantifier": "all fitted objects for which the figure is returned, all numbers of columns, components and observations", "why_tests_cant": "A statement on all figures: images are not compared in tests, and the sharing pattern depends on the position of the diagonal in each row for every number of columns.", "anchors": ["pyrichlet/mixture_models/_base.py:gibbs_map_pairplot", "pyrichlet/mixture_models/_base.py:gibbs_map_density"]}
{"id": "C103", "title": "A new DirichletDistribution has one number of components", "statement": "For every object DirichletDistribution(n, alpha) that the constructor returns with positive alpha there is a number N such that random() returns N weights, fit_variational(q) accepts exactly the matrices of N rows, and the mean weights of the fit are N numbers that sum to one.", "quantifier": "all n, all alpha of any type, all generators and matrices", "why_tests_cant": "The parts agree for a number alpha, which examples use; a list alpha makes draws follow its length while the fit follows n, and other numeric types leave the object without an attribute.", "anchors": ["pyrichlet/weight_models/_dirichlet_distribution.py:__init__", "pyrichlet/weight_models/_dirichlet_distribution.py:random", "pyrichlet/weight_models/_dirichlet_distribution.py:fit_variational"]}
{"id": "C104", "title": "Gibbs iterations keep the posterior law of finite mixtures, also when atoms of empty components are not stored", "statement": "For a mixture of normal observations with weights from DirichletDistribution (positive alpha) or EqualWeighting, and iterations without the machine-epsilon shift of the slice variables: if the state (labels, stored atoms, weights) has the posterior law when the atoms that are not stored are drawn from the prior, then it has the posterior law after any number of Gibbs iterations, and the labels have their posterior probabilities; an iteration returns with probability one from every state that holds the data and labels.", "quantifier": "all data sets with at least two observations (one coordinate), all numbers of components, all positive alpha, all valid hyperparameters, all numbers of iterations, all starting laws that are the posterior", "why_tests_cant": "A statement about probability laws on a continuous space; the invariant concerns atoms that no test can read because they do not exist yet.", "anchors": ["pyrichlet/mixture_models/_base.py:fit_gibbs", "pyrichlet/mixture_models/_base.py:_gibbs_step", "pyrichlet/weight_models/_dirichlet_distribution.py:complete", "pyrichlet/weight_models/_equal.py:complete"]}
{"id": "C105", "title": "Gibbs iterations of finite mixtures converge to the posterior law from every cold start", "statement": "For a mixture of normal observations with weights from DirichletDistribution (positive alpha) or EqualWeighting, fit_gibbs started cold, and iterations without the machine-epsilon shift of the slice variables: as the number of iterations grows, the mean of every bounded measurable function of labels, atoms and weights converges to its posterior mean, whatever the labels and weights at the start; in particular the probability that two observations share a component converges to its posterior probability.", "quantifier": "all data sets with at least two observations (one coordinate), all numbers of components, all positive alpha, all valid hyperparameters, all labels and weights at the start, all bounded measurable functions", "why_tests_cant": "A limit in the number of iterations, for laws on a continuous space; a finite run shows neither the limit nor that it is the same from all starts.", "anchors": ["pyrichlet/mixture_models/_base.py:fit_gibbs", "pyrichlet/mixture_models/_base.py:_gibbs_step", "pyrichlet/weight_models/_dirichlet_distribution.py:complete", "pyrichlet/weight_models/_equal.py:complete"]}
{"id": "C106", "title": "Averages over the saved states of finite mixtures converge to posterior means", "statement": "For a mixture of normal observations with weights from DirichletDistribution (positive alpha) or EqualWeighting, fit_gibbs started cold, and iterations without the machine-epsilon shift of the slice variables: as the number of saved states grows, the share of saved states in which two given observations have the same label - the entry of gibbs_eap_affinity_matrix() - converges in probability to the posterior probability that they share a component, whatever the burn-in, the subsample_steps and the labels at the start; the same for the number of groups and every function of the labels.", "quantifier": "all data sets with at least two observations (one coordinate), all numbers of components, all positive alpha, all valid hyperparameters, all labels at the start, all burn-in lengths, all subsample_steps >= 1, all pairs of observations", "why_tests_cant": "A law of large numbers for a dependent sequence; no finite run can show convergence, and the exact posterior is a sum over all label vectors.", "anchors": ["pyrichlet/mixture_models/_base.py:fit_gibbs", "pyrichlet/mixture_models/_base.py:_gibbs_step", "pyrichlet/weight_models/_dirichlet_distribution.py:complete", "pyrichlet/weight_models/_equal.py:complete", "pyrichlet/mixture_models/_base.py:gibbs_eap_affinity_matrix"]}
{"id": "C107", "title": "The slice and label update of a geometric mixture keeps the conditional law of the labels", "statement": "For a mixture with GeometricProcess weights: given the success probability p and the atoms, if the labels follow their conditional law, then they still follow it after the second half of a Gibbs step (new slice levels without the machine-epsilon shift, tail, new labels).", "quantifier": "all p in (0,1), atoms, densities, data sets with at least two observations, label vectors; levels and Gumbel noise are random", "why_tests_cant": "The bias shows only in the law of the labels, when a component above a slice level is missing because tail rounds down; runs return plausible labels.", "anchors": ["pyrichlet/weight_models/_geometric_process.py:tail", "pyrichlet/mixture_models/_base.py:_update_weights", "pyrichlet/mixture_models/_base.py:_update_d"]}
{"id": "C108", "title": "weighting_log_likelihood of the chain models is the log-density of their sticks and latent variables", "statement": "For BetaBinomial and BetaBernoulli, weighting_log_likelihood() is the logarithm of the joint prior density of the sticks and the latent binomial or Bernoulli variables that the object holds, as they are drawn by random() and complete().", "quantifier": "all numbers of sticks, all values of sticks and latent variables, all parameters", "why_tests_cant": "The method returns a number for every state; which stick is paired with which variable shows only when the sum is compared with the law of the draw.", "anchors": ["pyrichlet/weight_models/_beta_binomial.py:weighting_log_likelihood", "pyrichlet/weight_models/_beta_bernoulli.py:weighting_log_likelihood"]}
{"id": "C109", "title": "The variational score of a group is the expected log-density of the observation", "statement": "In fit_variational, the score from which the responsibility of a group for an observation is computed is the expected log weight plus the expectation of the log normal density of the observation under the fitted normal-Wishart law of the group's mean and precision; and after every iteration the parameters of each group are those of a proper normal-Wishart law.", "quantifier": "all dimensions, all observations, all proper parameters; all data, numbers of groups and iterations", "why_tests_cant": "The expectation is an integral over matrices; a wrong score still gives responsibilities that are positive, sum to one and often look plausible.", "anchors": ["pyrichlet/mixture_models/_base.py:_update_var_d", "pyrichlet/mixture_models/_base.py:_update_var_theta", "pyrichlet/mixture_models/_utils.py:e_log_norm_wishart"]}
{"id": "C110", "title": "The data and group terms of the variational bound are the expectations they stand for", "statement": "In the evidence lower bound by which fit_variational decides convergence, the data term is the expected log-density of all observations, weighted by their responsibilities; the prior term is the expected log prior density of the groups' means and precisions; and the entropy term is their expected log-density under the fitted law; all expectations under the fitted normal-Wishart laws.", "quantifier": "all dimensions, data sets, responsibilities, numbers of groups and proper parameters", "why_tests_cant": "The bound is one number without a reference value; a missing factor or a wrong sign changes neither its type nor, usually, the convergence of the loop.", "anchors": ["pyrichlet/mixture_models/_base.py:_e_q_log_p_x", "pyrichlet/mixture_models/_base.py:_e_log_p_theta", "pyrichlet/mixture_models/_base.py:_e_log_q_theta", "pyrichlet/mixture_models/_utils.py:entropy_wishart", "pyrichlet/mixture_models/_utils.py:log_wishart_normalization_term"]}
{"id": "C111", "title": "The Gibbs sampler does not depend on the units, the origin or the axes of the data", "statement": "Let all data given to a mixture (and the prior mean and scale matrix, when the user gave them) be transformed by an invertible affine map. Then every history of fit_gibbs calls, with generator draws of the groups' means and covariances transformed alike, returns or raises as before, and leaves the same labels, weights, slice variables, counts and co-clustering matrix; the stored means and covariances are the images; gibbs_eap_density and gibbs_map_density at transformed points are the old values divided by the determinant of the map; gibbs_map_cluster and gibbs_eap_affinity_matrix do not change.", "quantifier": "all dimensions, weight classes, affine maps, data sets, histories of fits (warm or cold, any starting method), generators and query points", "why_tests_cant": "A dependence on the origin or the units (a mean that is not subtracted, a prior computed from uncentred data) shows up as a slightly worse fit, never as an error; comparing runs needs matched random draws.", "anchors": ["pyrichlet/mixture_models/_base.py:fit_gibbs", "pyrichlet/mixture_models/_base.py:_initialize_common_params", "pyrichlet/mixture_models/_utils.py:posterior_norm_invw_params", "pyrichlet/mixture_models/_base.py:_update_atoms", "pyrichlet/mixture_models/_base.py:_update_d"]}
{"id": "C112", "title": "The variational fit follows rigid motions of the data", "statement": "Let all data given to a mixture be moved by a rigid motion (a rotation, reflection or reordering of the axes followed by a translation). Then every history of fit_variational and fit_gibbs calls, with the random starting parameters moved alike, returns or raises as before and leaves the same responsibilities, weights, labels and flags; the means and precisions of the groups are the images; the lower bound, var_eap_density, var_map_density, var_map_cluster and var_eap_affinity_matrix at the moved points do not change.", "quantifier": "all dimensions, weight classes with a variational part, rigid motions, data sets, histories of fits (warm or cold, any starting method), generators and query points", "why_tests_cant": "A fit that depends on the orientation of the axes raises nothing and looks plausible; comparing fits needs matched random draws and a motion that happens to expose the defect.", "anchors": ["pyrichlet/mixture_models/_base.py:fit_variational", "pyrichlet/mixture_models/_base.py:_update_var_theta", "pyrichlet/mixture_models/_base.py:_update_var_d", "pyrichlet/mixture_models/_base.py:_calc_elbo", "pyrichlet/mixture_models/_base.py:var_eap_density"]}
{"id": "C113", "title": "The affinity matrix of new points averages the clusterings of the stored states, and the consensus clustering uses it", "statement": "After any history of fits that stored states, gibbs_eap_affinity_matrix(y) returns for every set y of points; entry (i, j) is the fraction of the stored states whose most probable component is the same for points i and j; the matrix is symmetric with unit diagonal, entries in [0, 1] and A_ij + A_jk <= 1 + A_ik. gibbs_eap_spectral_consensus_cluster(y) clusters exactly this matrix. Passing the fitted data gives the same matrix as passing nothing.", "quantifier": "all weight classes, histories of fits, query sets and spectral clusterings", "why_tests_cant": "An affinity of the wrong points, of the wrong states or divided by the wrong count is still a symmetric matrix of plausible numbers, and the clustering computed from it hides the difference.", "anchors": ["pyrichlet/mixture_models/_base.py:gibbs_eap_affinity_matrix", "pyrichlet/mixture_models/_base.py:gibbs_eap_spectral_consensus_cluster", "pyrichlet/mixture_models/_utils.py:cluster"]}
{"id": "C114", "title": "var_eap_density is the expected density under the fitted variational law", "statement": "After fit_variational, var_eap_density at the data or at any given points is the expectation, under the fitted law, of the density of the mixture: the weights follow the law fitted by the weight model, and mean and precision of each group an independent normal-Wishart law with the fitted parameters. With component=j it is the contribution of that component; with dim it is the marginal density of these coordinates. Over the whole space it integrates to the sum of the mean weights.", "quantifier": "all dimensions, fitted groups with proper parameters, weight classes with a variational part, and query points", "why_tests_cant": "The expectation is an integral over precision matrices; a Student-t density with wrong degrees of freedom, precision or normalising constant is a smooth curve that looks right when plotted.", "anchors": ["pyrichlet/mixture_models/_base.py:var_eap_density", "pyrichlet/mixture_models/_utils.py:density_students_t"]}
{"id": "C115", "title": "var_map_density is the density at the mode of the fitted variational law", "statement": "After fit_variational, var_map_density with the coordinates written out is the density of the mixture at the mode of the fitted law: each group enters with the mean and precision that maximise its fitted normal-Wishart density, and the weights are those of the modes of the fitted sticks. The maximum exists and is unique after every fit with the default nu. The weights sum to one, so the density integrates to one. variational_mode_w_j raises ValueError only for a Beta density with several modes.", "quantifier": "all dimensions, fitted groups with proper parameters, parameters of the weights, and query points", "why_tests_cant": "A point that is close to the maximum, such as the mean or the marginal mode, gives a curve of the same shape; that no other positive definite matrix has a higher density is a statement about a cone of matrices.", "anchors": ["pyrichlet/mixture_models/_base.py:var_map_density", "pyrichlet/weight_models/_dirichlet_process.py:variational_mode_w_j", "pyrichlet/weight_models/_pitman_yor_process.py:variational_mode_w_j", "pyrichlet/weight_models/_dirichlet_distribution.py:variational_mode_w_j"]}
{"id": "C116", "title": "the order of the observations does not matter for fit_variational", "statement": "fit_variational on the same rows in another order, with the same generator, raises the same exception or leaves the same groups, weights, number of iterations, convergence flag and bound, and every observation has the same responsibilities. var_eap_density, var_map_density, var_eap_affinity_matrix and var_map_cluster give the same values for new points, and the values of the fitted points in the new order. This holds for the random start, for warm starts, and for the k-means start whenever the labels of k-means do not depend on the order.", "quantifier": "all weight classes, data sets, orders, numbers of groups, tolerances, generators, and histories of variational fits", "why_tests_cant": "A loop that mixes up the index of an observation is visible only for data where the mixed-up rows differ in the right way; the claim is about all permutations and every number of iterations.", "anchors": ["pyrichlet/mixture_models/_base.py:fit_variational", "pyrichlet/mixture_models/_base.py:_update_var_d", "pyrichlet/mixture_models/_base.py:_update_var_theta", "pyrichlet/mixture_models/_base.py:_update_var_w", "pyrichlet/mixture_models/_base.py:_calc_elbo"]}
{"id": "C117", "title": "the units of measurement do not matter for fit_variational", "statement": "Multiplying all coordinates of the data by the same number c (metres instead of centimetres), with the default priors or with priors converted along, fit_variational raises the same exception or leaves the same responsibilities, weights, number of groups and convergence flag after the same number of rounds; group means are multiplied by c and precisions divided by c squared. var_map_cluster and var_eap_affinity_matrix give the same answers for converted points.", "quantifier": "all weight classes, data sets, units, numbers of groups, tolerances, starts, generators and histories of variational fits", "why_tests_cant": "A constant that silently depends on the scale of the data (a jitter, a default prior, a convergence test on an absolute bound) goes unnoticed on data of ordinary size; the claim is about every unit and every number of rounds.", "anchors": ["pyrichlet/mixture_models/_base.py:fit_variational", "pyrichlet/mixture_models/_base.py:_update_var_theta", "pyrichlet/mixture_models/_base.py:_calc_elbo", "pyrichlet/mixture_models/_base.py:var_map_cluster"]}
{"id": "C118", "title": "densities and the bound are converted between units as densities are", "statement": "If all coordinates of the data and of the query points are multiplied by c, var_eap_density and var_map_density of observations with m coordinates are divided by c to the power m, and the lower bound that fit_variational follows falls by m log c per observation.", "quantifier": "all fitted objects, units, points, components and numbers of coordinates", "why_tests_cant": "The factor is right for one coordinate, the usual test case; for more coordinates a test needs the conversion law to compare with, a plausible-looking density is all one sees.", "anchors": ["pyrichlet/mixture_models/_base.py:var_eap_density", "pyrichlet/mixture_models/_base.py:var_map_density", "pyrichlet/mixture_models/_base.py:_calc_elbo", "pyrichlet/utils/functions.py:density_students_t", "pyrichlet/utils/functions.py:density_normal"]}
{"id": "C119", "title": "fit_gibbs does not raise on legal input", "statement": "Take a new mixture with legal parameters and call fit_gibbs any number of times: each call with at least two rows, init_groups None or at least one, a known init_method, k-means not asked for more clusters than rows, warm_start only after a fit with as many rows. Then every call returns and the mixture is fitted; for stick-breaking mixtures other than the geometric process the one alternative is that the loop of tail never ends.", "quantifier": "all mixtures classes with legal parameters, all data, all legal sequences of calls, all sequences of random numbers", "why_tests_cant": "The absence of exceptions must hold for every sequence of draws, every data set and every length of session; the failing cases need rare draws or particular histories.", "anchors": ["pyrichlet/mixture_models/_base.py:fit_gibbs", "pyrichlet/mixture_models/_base.py:_gibbs_step", "pyrichlet/mixture_models/_base.py:_initialize_gibbs_params", "pyrichlet/weight_models/_base.py:tail"]}
{"id": "C120", "title": "The Gibbs densities are densities and dim marginalises them", "statement": "After any history of fits, gibbs_eap_density (and gibbs_map_density) as a function of the query point is the density of the mean over the saved states of the mixtures of normal laws with the stored weights; its integral is the mean of the totals of the weights, at most one, and one for the finite mixtures. With dim=i (or a list) it is the density of those coordinates of the same law.", "quantifier": "all ten mixture classes, all histories of fits, all data, all legal random numbers, all query points, all coordinates", "why_tests_cant": "Integrals over the whole space and equality of marginals for every set, for every reachable object.", "anchors": ["pyrichlet/mixture_models/_base.py:gibbs_eap_density", "pyrichlet/mixture_models/_base.py:gibbs_map_density", "pyrichlet/mixture_models/_utils.py:mixture_density"]}
{"id": "C121", "title": "The prior used by the fits is the one given, completed by the data, and is proper", "statement": "The parts of the normal - inverse Wishart prior given to the constructor are used unchanged by every fit; the parts left out are the mean and the sample covariance of the observations to fit and the number of columns, and make a proper prior.", "quantifier": "all histories of fit_gibbs and fit_variational calls, returning or raising, all data sets, all weight classes, all generators", "why_tests_cant": "The tests fit each object to one data set with more observations than columns.", "anchors": ["pyrichlet/mixture_models/_base.py:_initialize_common_params"]}
{"id": "C122", "title": "Arrays handed out stay as they are, arrays handed in are not changed, and arrays behave as values", "statement": "No call of the library writes into an array of the caller, an array returned earlier, an array of a saved state or of the best state, or an array kept from the caller; what is seen through every attribute is what it would be if every array were a value. The caller may write into arrays that the library copied or made anew without effect on any object.", "quantifier": "all programs over any number of objects of the ten classes and their mixtures, all sequences of calls, all branches, loop counts and computed numbers, calls cut off by an exception at any statement, all later writes by the caller", "why_tests_cant": "The tests never hold on to an array across two calls, never write into one, and never use two objects on the same array.", "anchors": ["pyrichlet/weight_models/_base.py", "pyrichlet/weight_models/_beta_bernoulli.py:random", "pyrichlet/mixture_models/_base.py:_save_params", "pyrichlet/mixture_models/_base.py:_initialize_common_params", "pyrichlet/mixture_models/_base.py:get_sim_params"]}
{"id": "C123", "title": "A variational fit on legal input returns, and the evidence lower bound is a number throughout", "statement": "With at least one observation, a proper prior, at least one iteration and a legal start, fit_variational of every mixture class returns without an exception. At every iteration the evidence lower bound is a number, afterwards all groups have proper parameters and all responsibilities are positive, and var_converged is true exactly when the last change of the bound was below the tolerance.", "quantifier": "all six variational mixture classes, all finite data sets of any size and dimension, all numbers of groups, proper priors, tolerances, iteration limits and seeds, all three starts", "why_tests_cant": "The tests fit a few small data sets with one seed; an exception or a nan in the bound at a later iteration, for another number of groups or another prior would not be seen.", "anchors": ["pyrichlet/mixture_models/_base.py:fit_variational", "pyrichlet/mixture_models/_base.py:_initialize_variational_params", "pyrichlet/mixture_models/_base.py:_maximize_variational", "pyrichlet/mixture_models/_base.py:_calc_elbo"]}
{"id": "C124", "title": "Iterations of a variational fit do not lower the evidence lower bound", "statement": "Each update of fit_variational (responsibilities, weights, group parameters) leaves the evidence lower bound at least as large as before, up to the cost of the machine epsilon added to the responsibilities, and the bound computed by the code does not fall from one iteration to the next.", "quantifier": "all variational mixture classes, data sets, states reached by a fit, iterations and seeds", "why_tests_cant": "The tests look at the result of a few fits, not at the bound along the way; that an update is the best one among all laws is a statement about all alternatives.", "anchors": ["pyrichlet/mixture_models/_base.py:fit_variational", "pyrichlet/mixture_models/_base.py:_maximize_variational", "pyrichlet/mixture_models/_base.py:_update_var_d", "pyrichlet/mixture_models/_base.py:_update_var_theta", "pyrichlet/mixture_models/_base.py:_calc_elbo"]}
{"id": "C125", "title": "A warm start of fit_gibbs continues the previous fit", "statement": "fit_gibbs(y) followed by n calls fit_gibbs(y, warm_start=True) leaves the same object (saved states, counts, co-clustering, MAP state, current state, generator) as one fit_gibbs(y) with n+1 times as many iterations.", "quantifier": "all mixture classes, data sets, initialisations, numbers of iterations and of warm starts, generators and earlier states of the object", "why_tests_cant": "The tests never compare a continued fit with a longer one; equality for all numbers of iterations and seeds is an induction over the chain.", "anchors": ["pyrichlet/mixture_models/_base.py:fit_gibbs", "pyrichlet/mixture_models/_base.py:_initialize_common_params", "pyrichlet/mixture_models/_base.py:_save_params"]}
{"id": "C126", "title": "A warm start of fit_variational continues the previous fit", "statement": "fit_variational(y) followed by fit_variational(y, warm_start=True) gives the groups, responsibilities and weights that one fit_variational(y) with as many iterations in total (total_iter = T1 + T2) gives.", "quantifier": "all mixture classes with a variational fit, data sets, initialisations, tolerances, numbers of iterations, generators and earlier states of the object", "why_tests_cant": "The tests never compare a continued fit with a longer one; the equality ranges over all data, numbers of iterations and stopping points.", "anchors": ["pyrichlet/mixture_models/_base.py:fit_variational", "pyrichlet/mixture_models/_base.py:_initialize_common_params", "pyrichlet/mixture_models/_base.py:_maximize_variational"]}
{"id": "C127", "title": "init_groups bounds the number of groups with which fit_gibbs starts", "statement": "A cold start of fit_gibbs with init_groups=g puts the observations into at most g groups, numbered from 0; without init_groups the number of groups comes from the weighting structure; random labels do not depend on init_groups (the documentation of the parameter).", "quantifier": "all mixture classes, data sets, values of init_groups, initialisation methods, generators and earlier states of the object", "why_tests_cant": "The start is overwritten by the first iteration, so tests of fitted objects never see it; the bound ranges over all data, earlier fits and seeds.", "anchors": ["pyrichlet/mixture_models/_base.py:_initialize_gibbs_params", "pyrichlet/mixture_models/_utils.py:kmeans_cluster_size_biased", "pyrichlet/weight_models/_base.py:random_assignment"]}
{"id": "C128", "title": "The data sets are loaded with labels that belong to their rows", "statement": "load_penguins() and load_chaetocnema() return measurements and labels of the same rows, in the order of the file; load_penguins leaves out exactly the rows with a missing species or measurement, so nothing in its result is missing; load_chaetocnema keeps every row; a file with too few columns is rejected.", "quantifier": "all csv files, whatever their rows, cells and missing cells", "why_tests_cant": "A test sees the two shipped files only; alignment after rows are left out is a statement about all files.", "anchors": ["pyrichlet/utils/_loaders.py:load_chaetocnema", "pyrichlet/utils/_loaders.py:load_penguins"]}
{"id": "C129", "title": "fit_gibbs and fit_variational do not overwrite each other's results", "statement": "After any further calls of fit_variational, the gibbs_* results at given points, the affinity matrix and the stored draws are what they were; after any further calls of fit_gibbs, the var_* results at given points and the variational labels and affinities are what they were. This fails for queries without points, which use the data of the last fit of either kind, and for fit_gibbs(init_method=\"variational\"), which refits.", "quantifier": "all weight classes with a variational fit, all data, arguments, random streams and numbers of calls, whether the calls return or raise", "why_tests_cant": "Every state reachable by any sequence of calls, including calls that raise half-way, must leave the other results alone; tests fit once each way.", "anchors": ["pyrichlet/mixture_models/_base.py:fit_gibbs", "pyrichlet/mixture_models/_base.py:fit_variational", "pyrichlet/mixture_models/_base.py:gibbs_eap_density", "pyrichlet/mixture_models/_base.py:var_eap_density"]}
{"id": "C130", "title": "The quick guide of the README works", "statement": "On a new mixture with default priors, fit_gibbs(y, init_groups=g) followed by fit_variational(y, n_groups=g) both return, and after them gibbs_eap_density(x), var_eap_density(x), var_map_cluster(), gibbs_map_cluster() and gibbs_eap_spectral_consensus_cluster() return one value or label per row. This needs observations that do not lie in a hyperplane and a k-means that finds g groups. With init_method=\"random\" it may fail: gibbs_map_cluster() raises KeyError.", "quantifier": "DirichletProcessMixture, PitmanYorMixture and GeometricProcessMixture with legal parameters, any dimension, any number of observations not in a hyperplane, any g from 1 to the number of rows, any iteration counts, all random streams with legal draws (for the Geometric process positive beta draws; for the other two classes with probability one)", "why_tests_cant": "The calls must succeed for every data set, every dimension and every run of the random generator; the tests run a few seeds on one data set.", "anchors": ["README.md", "pyrichlet/mixture_models/_base.py:fit_gibbs", "pyrichlet/mixture_models/_base.py:fit_variational", "pyrichlet/mixture_models/_base.py:gibbs_map_cluster"]}
{"id": "C131", "title": "fit_gibbs terminates with probability one", "statement": "A session of legal calls of fit_gibbs (cold or warm, any init_method, any legal init_groups) ends with probability one: the loop in tail that draws sticks until the slice threshold is met stops in every iteration of every call. One exceptional event of probability zero serves all data sets, all sessions, all settings and all values of the mixture's other draws.", "quantifier": "DirichletProcessMixture, PitmanYorMixture, BetaBinomialMixture and BetaInBetaMixture (p_method independent, geometric or static, or x equal to 0 or 1) with legal parameters; any data, dimension, number of rows, number of calls and iterations; any random generator whose independent draws have the documented laws", "why_tests_cant": "The number of rounds of the loop has no bound over the random streams; a test sees a finite number of seeds and cannot show that the exceptional streams have probability zero.", "anchors": ["pyrichlet/weight_models/_base.py:tail", "pyrichlet/mixture_models/_base.py:fit_gibbs"]}
{"id": "C132", "title": "rejection_sample draws from the density it is given", "statement": "rejection_sample(f, max_y, a, b) with independent uniform numbers ends with probability one and returns a point of a set B with probability equal to the integral of f over B divided by its integral over [a, b]; this holds for every state of the generator. With size it does not hold: for the step function with heights 0, 1/2 and 1 on the thirds of [0, 1], size=1 returns a point of the middle third with probability 7/19 instead of 1/3.", "quantifier": "every measurable f with 0 <= f <= max_y on [a, b] and a positive integral, every a < b, max_y > 0 and measurable B (scalar); a named step function (sized)", "why_tests_cant": "The law of the result is over infinite streams and any number of rejected rounds; the bias of the sized version is about 0.035 and shows only in the law, no single run is wrong.", "anchors": ["pyrichlet/mixture_models/_utils.py:rejection_sample"]}
{"id": "C133", "title": "Gibbs fits target the posterior for any number of columns", "statement": "For data with any number m of columns, a positive lambda, more than m-1 degrees of freedom and a positive definite scale matrix: the normal-inverse-Wishart density is a probability density on means and symmetric positive definite matrices; the updated parameters are those of the conditional law given the rows; and for the mixtures with Dirichlet process, Pitman-Yor, Dirichlet and equal weights the law of the state of fit_gibbs tends to the posterior, and the affinities of the saved iterations tend to the posterior probabilities of sharing a component. The default degrees of freedom suffice. If a combination of the columns is constant over the rows, the default scale matrix and the scale matrix of every posterior are singular, so that the law does not exist.", "quantifier": "every m, all data, every admissible prior, every starting state without stored atoms of empty components; for the last part all data in a hyperplane", "why_tests_cant": "The total of a density over matrices and the limit law of a chain are integrals and limits; no finite number of runs determines them.", "anchors": ["pyrichlet/mixture_models/_utils.py:posterior_norm_invw_params", "pyrichlet/mixture_models/_utils.py:random_normal_invw", "pyrichlet/mixture_models/_base.py:fit_gibbs", "pyrichlet/mixture_models/_base.py:_initialize_common_params"]}
{"id": "C134", "title": "Process mixtures converge to the Chinese restaurant and Pitman-Yor posteriors over partitions", "statement": "For the weights of DirichletProcess(alpha), the probability that n labels have a given partition is exp(dirichlet_log_eppf(alpha, block sizes)). For PitmanYorProcess(pyd, alpha) it is the two-parameter law with discount pyd and concentration alpha - pyd, so two labels agree with probability (1-pyd)/(1+alpha-pyd), never the (1-pyd)/(1+alpha) of the parameters passed unless pyd = 0. After fit_gibbs with normal observations in any number of columns, the average over the saved iterations of any function of the partition of the labels (each affinity, the number of groups) tends in probability to its mean under the law proportional to that prior probability times the marginal likelihood of the rows of every block, in closed form.", "quantifier": "every number of observations n, every partition, alpha > 0, 0 <= pyd < 1, every admissible prior, data, start, gap between saved iterations and burn-in", "why_tests_cant": "Sums over infinitely many labelings and expectations over infinitely many sticks; the limit is over the number of iterations.", "anchors": ["pyrichlet/utils/functions.py:dirichlet_log_eppf", "pyrichlet/weight_models/_dirichlet_process.py:DirichletProcess.random", "pyrichlet/weight_models/_pitman_yor_process.py:PitmanYorProcess.random", "pyrichlet/mixture_models/_base.py:fit_gibbs"]}
{"id": "C135", "title": "Finite mixtures converge to the Dirichlet-multinomial posterior over labels", "statement": "Labels drawn from the weights of DirichletDistribution(n, alpha) have the Dirichlet-multinomial probability, and from EqualWeighting(n) the probability n to the power of minus the number of observations. After fit_gibbs with normal observations in any number of columns, the average over the saved iterations of any function of the labels tends in probability to its mean under the law proportional to that prior probability times the marginal likelihood of the rows of every occupied component, in closed form. If all entries of alpha are equal (or the weights are), the share of saved iterations in which a given observation is in a given component tends to 1/n, whatever the data are (label switching).", "quantifier": "every number of components and observations, every label vector, alpha with positive entries, every admissible prior, data, start, gap between saved iterations and burn-in", "why_tests_cant": "The limit is over the number of iterations and the statement is about exact probabilities; a finite chain may stay in one labelling for a long time.", "anchors": ["pyrichlet/weight_models/_dirichlet_distribution.py:DirichletDistribution.random", "pyrichlet/weight_models/_equal.py:EqualWeighting.random", "pyrichlet/mixture_models/_base.py:fit_gibbs"]}
{"id": "C136", "title": "The order of the observations does not matter for fit_gibbs", "statement": "If the rows of the data are given in another order and the first labels follow that order, then the whole sequence of label vectors that fit_gibbs saves has the same law, with the entries of every vector in the other order; so have the affinity of any two rows and every other function of the saved labels. Two runs with one seed are different, the laws are equal. The parts of the prior that are taken from the data do not depend on the order.", "quantifier": "every permutation of the rows, data, admissible prior, cold start, number of saved iterations, gap and burn-in; mixtures with DirichletProcess, PitmanYorProcess, DirichletDistribution and EqualWeighting; normal observations in any number of columns", "why_tests_cant": "The claim is equality of laws of random sequences of any length; a test sees two runs that differ.", "anchors": ["pyrichlet/mixture_models/_base.py:fit_gibbs", "pyrichlet/mixture_models/_base.py:_update_atoms", "pyrichlet/mixture_models/_base.py:_update_d"]}
{"id": "C137", "title": "gibbs_eap_density of finite mixtures converges to the posterior predictive density", "statement": "For a mixture with finitely many components and weights from DirichletDistribution or EqualWeighting, started cold, and every point x: the probability that gibbs_eap_density([x]) raises, or differs by eps or more from the posterior predictive density at x, tends to zero as the number of saved iterations grows. The posterior predictive density is the probability of the data with x appended, summed over all labels of n + 1 observations in closed form, divided by that of the data; its integral over x is one.", "quantifier": "every data set with at least two rows and any number of columns, every admissible prior, every N and alpha, every x and eps > 0, every burn-in, subsampling and start labels", "why_tests_cant": "It is a statement about the limit law of a random density over infinitely many iterations; a run with a bias of a few percent looks the same, and the density of a state is unbounded in its atoms, so no sample bounds the error.", "anchors": ["pyrichlet/mixture_models/_base.py:gibbs_eap_density", "pyrichlet/mixture_models/_utils.py:mixture_density", "pyrichlet/mixture_models/_base.py:_gibbs_step", "pyrichlet/weight_models/_dirichlet_distribution.py:DirichletDistribution.random"]}
{"id": "C138", "title": "The affinity matrix of given points converges to the posterior probability of equal most probable components, which is no co-clustering probability", "statement": "For a mixture with finitely many components and weights from DirichletDistribution or EqualWeighting, started cold, and at least two points: the probability that gibbs_eap_affinity_matrix(points) raises, or that the entry of a pair of points differs by eps or more from the posterior probability that both points have the same most probable component, tends to zero as the number of saved iterations grows. With the fitted data as argument this is not the limit of gibbs_eap_affinity_matrix() without argument: for two equal rows the first is one, the second is below one as soon as there are two components.", "quantifier": "every data set with at least two rows and any number of columns, every admissible prior, every N and alpha, every list of at least two points and every pair of them, every eps > 0, every burn-in, subsampling and start labels", "why_tests_cant": "The limit over infinitely many iterations of a random matrix is a probability under the posterior law of atoms and weights; a finite run shows neither the limit nor that it is another one than that of the default call.", "anchors": ["pyrichlet/mixture_models/_base.py:gibbs_eap_affinity_matrix", "pyrichlet/mixture_models/_utils.py:cluster", "pyrichlet/mixture_models/_base.py:_gibbs_step"]}
{"id": "C139", "title": "A Gibbs iteration of a mixture with geometric weights does not keep the posterior law of the labels", "statement": "Take a mixture with GeometricProcess(a, b) weights that stores no atoms and whose labels are drawn from their posterior law given the data (success probability Beta(a, b), atoms from their prior; this law is proper). After one Gibbs iteration (atoms, weights, slices, tail, labels) the probability that all labels are 0 is strictly larger than its posterior probability. So fit_gibbs does not leave the posterior law of the labels invariant, unlike with the weights of C95 and C104.", "quantifier": "every data set with at least two rows and any number of columns, all a, b > 0, every admissible prior of the atoms (and every conjugate prior with positive densities), every state of the object without stored atoms, every position of the generators", "why_tests_cant": "The excess is a difference between two sums over infinitely many label vectors of integrals over atoms and the success probability; a run shows one label vector per iteration.", "anchors": ["pyrichlet/weight_models/_geometric_process.py:tail", "pyrichlet/weight_models/_geometric_process.py:random", "pyrichlet/mixture_models/_base.py:_gibbs_step"]}
{"id": "C140", "title": "gibbs_eap_density of process mixtures lies, on average, strictly below the posterior predictive density", "statement": "For a mixture with DirichletProcess or PitmanYorProcess weights and normal observations: (1) the posterior predictive density at a point x (the posterior mean of the density of all components) is the probability of the data with x appended divided by the probability of the data, two explicit sums over partitions; over all x it integrates to one. (2) If the object's state has the posterior law, the mean of gibbs_eap_density([x]) is the same for every burn-in, gap and number of saved states, and it is strictly smaller than the posterior predictive density at x: the components beyond the stored weights are left out and the stored weights are not rescaled. (3) From every start without stored atoms, the mean of the density of the state after k iterations, cut off at any finite level, converges as k grows, and all these limits are below one bound that is strictly smaller than the posterior predictive density. For finitely many components the density converges to the posterior predictive density (C137).", "quantifier": "every data set with at least two rows and any number of columns, every point x, all admissible priors, all alpha > 0 and all discounts in [0, 1), every burn-in, gap and number of saved states, every cold start, every position of the generators", "why_tests_cant": "The claim compares an expectation over all random draws with a sum over all partitions, at every point x; one run gives one random value of the density, and the gap can be small.", "anchors": ["pyrichlet/mixture_models/_base.py:gibbs_eap_density", "pyrichlet/mixture_models/_utils.py:mixture_density", "pyrichlet/weight_models/_base.py:tail"]}
{"id": "C141", "title": "A saved state with k groups holds more than k/(k+1) of the mass", "statement": "For a mixture with DirichletProcess, PitmanYorProcess, BetaInBeta, BetaInDirichlet, BetaBernoulli or BetaBinomial weights: (1) after every history of fit_gibbs calls the weights of every saved state sum to at least (1 - eps) / 2, where eps is the floating point margin the code adds to the slice levels. (2) Without this margin, the weights of a saved state whose labels form k groups sum to more than k / (k + 1). (3) Hence the total mass of gibbs_eap_density is more than the mean of k / (k + 1) over the saved states, in particular more than one half. (4) For DirichletProcess and PitmanYorProcess it is less than one unless a beta draw is exactly one.", "quantifier": "every new object of the six classes, every history of fits (cold or warm, returning or raising), every legal stream of the weights' generator, all uniform draws in their half-open intervals, all Gumbel noise, all atoms and labels of k-means", "why_tests_cant": "The bound is over all random draws of all runs; a run whose weights sum to little more than the bound has small probability.", "anchors": ["pyrichlet/mixture_models/_base.py:_update_weights", "pyrichlet/mixture_models/_base.py:gibbs_eap_density", "pyrichlet/weight_models/_base.py:tail"]}
{"id": "C142", "title": "get_n_groups and get_n_theta describe the saved states, and get_n_theta never decreases", "statement": "After every history of fit_gibbs calls: (1) entry i of get_n_groups is the number of distinct labels, and entry i of get_n_theta the number of components that hold an atom, in entry i of get_sim_params. (2) A component that holds an atom in a saved state holds one in all later saved states, so the numbers returned by get_n_theta never decrease. (3) In every saved state the number of groups is at most the number of stored weights, which is at most the number of atoms, and the number of groups is at most the number of observations. (4) get_n_theta is not the number of components in use: it can exceed the number of stored weights.", "quantifier": "every weight class of the library, every new object, every history of fits (cold or warm, returning or raising), all random streams, all data", "why_tests_cant": "It is about all histories and all saved states; drops in the number of atoms would show only for particular draws.", "anchors": ["pyrichlet/mixture_models/_base.py:get_n_groups", "pyrichlet/mixture_models/_base.py:get_n_theta", "pyrichlet/mixture_models/_base.py:_save_params", "pyrichlet/mixture_models/_base.py:get_sim_params"]}
{"id": "C143", "title": "gibbs_eap_density by component: when it returns and when the components add up", "statement": "After every history of fit_gibbs calls: (1) gibbs_eap_density(y, component=j) returns exactly when every averaged saved state stores more than j weights, and is then the mean over those states of the weight of component j times its density. (2) Otherwise it raises: IndexError if the first state with too few weights holds an atom for j, KeyError if not. (3) If all averaged states store the same number n of weights, the densities of the components 0..n-1 add up to gibbs_eap_density(y); for DirichletDistribution and EqualWeighting this is always so. (4) In general the components for which the call returns are short of the total by the mean of what the other components contribute; with positive weights and densities they add up exactly when all averaged states store the same number of weights. (5) For process mixtures they need not add up.", "quantifier": "every weight class of the library, every new object, every history of fits (cold or warm, returning or raising), all random streams, all points, all marginals, all numbers of periods", "why_tests_cant": "It is about all histories, points and components; for finite mixtures, which tests would use, the components always add up.", "anchors": ["pyrichlet/mixture_models/_base.py:gibbs_eap_density", "pyrichlet/mixture_models/_utils.py:mixture_density"]}
{"id": "C144", "title": "The mixture constructors hand every keyword to the right place", "statement": "For each of the ten mixtures and every set of keyword arguments: (1) the constructor returns exactly when every keyword is a parameter of the class, rng is None, a non-negative int or a Generator, the parameters of the weight model pass its checks (PitmanYor: -pyd < alpha; BetaInBeta: a known p_method; DirichletDistribution: an int n), and total_iter, burn_in and subsample_steps are numbers with total_iter > burn_in. (2) Every parameter of the new object and of its weight model is the given value, or the documented default, the three iteration numbers without their decimals. (3) The order of the keywords has no influence. (4) A keyword that is no parameter raises TypeError if the weight model can be made. (5) show_progress, a documented parameter of the base class, is refused with TypeError by BetaInBetaMixture and BetaBinomialMixture, whatever else is given, and taken by the other eight.", "quantifier": "all ten mixture classes, all lists of keyword arguments of any length, all values", "why_tests_cant": "There are unboundedly many combinations of keywords and values; swapped or dropped keywords show only when the values differ from the defaults.", "anchors": ["pyrichlet/mixture_models/_base.py:__init__", "pyrichlet/mixture_models/_dirichlet_process_mixture.py:__init__", "pyrichlet/mixture_models/_pitman_yor_process_mixture.py:__init__", "pyrichlet/mixture_models/_geometric_process_mixture.py:__init__", "pyrichlet/mixture_models/_beta_in_beta_mixture.py:__init__", "pyrichlet/mixture_models/_beta_in_dirichlet_mixture.py:__init__", "pyrichlet/mixture_models/_beta_bernoulli_mixture.py:__init__", "pyrichlet/mixture_models/_beta_binomial_mixture.py:__init__", "pyrichlet/mixture_models/_dirichlet_distribution_mixture.py:__init__", "pyrichlet/mixture_models/_equal_weighted_mixture.py:__init__", "pyrichlet/mixture_models/_frequency_weighted_mixture.py:__init__", "pyrichlet/utils/validators.py:rng_parser"]}
{"id": "C145", "title": "Negative components of the density methods", "statement": "component=-i names, as Python indices do, the i-th group from the end. (1) After fit_gibbs, gibbs_eap_density and gibbs_map_density raise KeyError for every negative component (valid points and dim, at least one state). (2) After fit_variational with k groups, var_eap_density(component=-i) raises IndexError for i > k. (3) For DirichletDistribution and EqualWeighting and 1 <= i <= k it equals var_eap_density(component=k-i); for FrequencyWeighting the weight used is that of component k-i if k-i is less than the number of observations. (4) For DirichletProcess (2 <= i < k), PitmanYorProcess (1 <= i < k) and GeometricProcess (1 <= i <= k) it is strictly larger than var_eap_density(component=k-i) at every point: the group is counted from the end but the weight is not.", "quantifier": "all points, all variational fits with random start of any number of groups, observations and columns, all random outcomes, all legal hyperparameters, all negative components", "why_tests_cant": "The returned numbers are finite and positive, so nothing signals the wrong weight; it depends on the class, the number of groups and the fitted parameters.", "anchors": ["pyrichlet/mixture_models/_base.py:var_eap_density", "pyrichlet/mixture_models/_base.py:gibbs_eap_density", "pyrichlet/mixture_models/_base.py:gibbs_map_density", "pyrichlet/mixture_models/_utils.py:mixture_density", "pyrichlet/weight_models/_dirichlet_process.py:variational_mean_w_j", "pyrichlet/weight_models/_pitman_yor_process.py:variational_mean_w_j", "pyrichlet/weight_models/_geometric_process.py:variational_mean_w_j", "pyrichlet/weight_models/_dirichlet_distribution.py:variational_mean_w_j", "pyrichlet/weight_models/_equal.py:variational_mean_w_j", "pyrichlet/weight_models/_frequency.py:variational_mean_w_j"]}
{"id": "C146", "title": "Negative components of var_map_density", "statement": "After fit_variational with k groups and with a dim given, var_map_density(component=-i) raises IndexError for i > k. For 1 <= i <= k the answers for -i and for k-i are the same normal density times a weight each. For DirichletDistribution and EqualWeighting the answers agree (or both raise); for FrequencyWeighting the weights agree if k-i is at most the number of observations. For DirichletProcess and 2 <= i < k the weight of -i is the mode of the stick and strictly larger than that of k-i. For PitmanYorProcess it is at least as large whenever both calls return, and strictly larger for i < k if the first parameter of every stick exceeds one. For GeometricProcess with both parameters above one it is that of k-i divided by (1-p)^k, and exceeds one if the first parameter is the larger; with the second parameter at most one, -k gives zero although component 0 has weight one.", "quantifier": "all points and dims, all variational fits with random start of any number of groups, observations and columns, all random outcomes, all legal hyperparameters, all negative components; the statements about Pitman-Yor and geometric weights for all parameters", "why_tests_cant": "The result is an array of finite numbers of the right shape; whether the weight is the right one depends on the class, the number of groups and the fitted parameters.", "anchors": ["pyrichlet/mixture_models/_base.py:var_map_density", "pyrichlet/weight_models/_dirichlet_process.py:variational_mode_w_j", "pyrichlet/weight_models/_pitman_yor_process.py:variational_mode_w_j", "pyrichlet/weight_models/_geometric_process.py:variational_mode_w_j", "pyrichlet/weight_models/_dirichlet_distribution.py:variational_mode_w_j", "pyrichlet/weight_models/_equal.py:variational_mode_w_j", "pyrichlet/weight_models/_frequency.py:variational_mode_w_j"]}
