{
 "claims": [
  {
   "property": "C01",
   "status": "proved",
   "theorems": [
    "Verif.C01_dirichletProcess",
    "Verif.C01_pitmanYor",
    "Verif.C01_betaInBeta",
    "Verif.C01_betaInDirichlet",
    "Verif.C01_betaBinomial",
    "Verif.C01_betaBernoulli",
    "Verif.C01_dirichletDistribution",
    "Verif.C01_dirichletDistribution_scalar",
    "Verif.C01_equalWeighting",
    "Verif.C01_frequencyWeighting",
    "Verif.C01_geometric"
   ],
   "note": "Invariant over all call histories of all ten classes."
  },
  {
   "property": "C02",
   "status": "partial",
   "theorems": [
    "Verif.C02_dirichletProcess",
    "Verif.C02_pitmanYor",
    "Verif.C02_betaInBeta",
    "Verif.C02_betaBinomial",
    "Verif.C02_betaBernoulli",
    "Verif.C02_betaInDirichlet",
    "Verif.C02_dirichletProcess_complete",
    "Verif.C02_pitmanYor_complete",
    "Verif.C02_betaInBeta_complete",
    "Verif.C02_betaBinomial_complete",
    "Verif.C02_betaInDirichlet_complete",
    "Verif.C02_betaBernoulli_complete_partial",
    "Verif.C02_betaBernoulli_complete_refuted",
    "Verif.C02_geometric",
    "Verif.C02_geometric_complete"
   ],
   "note": "random: every history of all seven stick-breaking classes. complete: the same for six classes; for BetaBernoulli the claim is false after a failed complete(1) on a fresh object (refuted with a witness) and is proved from every state whose weights belong to its sticks."
  },
  {
   "property": "C03",
   "status": "partial",
   "theorems": [
    "Verif.C03_dirichletProcess",
    "Verif.C03_pitmanYor",
    "Verif.C03_betaInBeta",
    "Verif.C03_betaBinomial",
    "Verif.C03_betaBernoulli",
    "Verif.C03_betaInDirichlet",
    "Verif.C03_dirichletProcess_complete",
    "Verif.C03_pitmanYor_complete",
    "Verif.C03_betaInBeta_complete",
    "Verif.C03_betaBinomial_complete",
    "Verif.C03_betaInDirichlet_complete",
    "Verif.C03_betaBernoulli_complete_partial",
    "Verif.C03_dirichletDistribution",
    "Verif.C03_equalWeighting",
    "Verif.C03_geometric",
    "Verif.C03_geometric_complete",
    "Verif.C03_dirichletProcess_refuted",
    "Verif.C03_frequencyWeighting_refuted"
   ],
   "note": "Proved for the state after every successful draw (random of at least one weight, or complete(n>=1)) in every history, and every later sequence of calls other than random. The statement for every reachable state is false for DirichletProcess after random(0) and for FrequencyWeighting (both refuted with witnesses)."
  },
  {
   "property": "C04",
   "status": "partial",
   "theorems": [
    "Verif.C04_dirichletProcess",
    "Verif.C04_pitmanYor",
    "Verif.C04_betaInBeta",
    "Verif.C04_betaBinomial",
    "Verif.C04_betaInDirichlet_partial",
    "Verif.C04_betaBernoulli_partial",
    "Verif.C04_geometric",
    "Verif.C04_betaInDirichlet_refuted",
    "Verif.C04_betaBernoulli_refuted",
    "Verif.C04_equalWeighting_refuted",
    "Verif.C04_frequencyWeighting_refuted",
    "Verif.C04_dirichletDistribution_refuted"
   ],
   "note": "Proved after every history for DirichletProcess, PitmanYor, BetaInBeta, BetaBinomial (n>=1), Geometric; the remaining classes violate the claim (refuted with witnesses) and have the strongest true version."
  },
  {
   "property": "C05",
   "status": "partial",
   "theorems": [
    "Verif.C05_dirichletProcess",
    "Verif.C05_pitmanYor",
    "Verif.C05_betaInBeta",
    "Verif.C05_betaBinomial_partial",
    "Verif.C05_betaBernoulli_partial",
    "Verif.C05_betaInDirichlet_partial",
    "Verif.C05_geometric",
    "Verif.C05_betaBinomial_refuted",
    "Verif.C05_betaBernoulli_refuted",
    "Verif.C05_betaBernoulli_unfitted_refuted",
    "Verif.C05_betaInDirichlet_refuted",
    "Verif.C05_equalWeighting_refuted",
    "Verif.C05_frequencyWeighting_refuted",
    "Verif.C05_dirichletDistribution_refuted"
   ],
   "note": "Exact size for DirichletProcess, PitmanYor, BetaInBeta and Geometric after every history, for the other stick-breaking classes only without data; with data, and for the finite classes, refuted with witnesses."
  },
  {
   "property": "C06",
   "status": "partial",
   "theorems": [
    "Verif.C06_dirichletProcess",
    "Verif.C06_pitmanYor",
    "Verif.C06_geometric",
    "Verif.C06_betaInBeta",
    "Verif.C06_betaBinomial",
    "Verif.C06_betaBernoulli",
    "Verif.C06_betaInDirichlet",
    "Verif.C06_dirichletDistribution",
    "Verif.C06_frequencyWeighting",
    "Verif.C06_equalWeighting_refuted"
   ],
   "note": "All classes but EqualWeighting, for which the claim is refuted."
  },
  {
   "property": "C07",
   "status": "proved",
   "theorems": [
    "Verif.C07_dirichletProcess",
    "Verif.C07_pitmanYor",
    "Verif.C07_betaInBeta",
    "Verif.C07_betaBinomial",
    "Verif.C07_betaBernoulli",
    "Verif.C07_betaInDirichlet",
    "Verif.C07_dirichletDistribution",
    "Verif.C07_equalWeighting",
    "Verif.C07_frequencyWeighting",
    "Verif.C07_geometric"
   ],
   "note": "All ten classes, by a relational logic: results, exceptions and generator position agree for every reordering."
  },
  {
   "property": "C08",
   "status": "proved",
   "theorems": [
    "Verif.C08_random",
    "Verif.C08_prior",
    "Verif.C08_complete"
   ],
   "note": "Posterior and prior draws of random, and the sticks appended by complete, after every history."
  },
  {
   "property": "C09",
   "status": "partial",
   "theorems": [
    "Verif.C09_partial",
    "Verif.C09_complete_partial",
    "Verif.C09_nonpos_fails",
    "Verif.C09_error_refuted",
    "Verif.C09_law_refuted"
   ],
   "note": "Both halves are false for the code (refuted with witnesses: alpha<=0 is accepted and cannot be drawn; the discount multiplies j instead of j+1). Proved for alpha>0 with the law shifted to alpha-pyd."
  },
  {
   "property": "C10",
   "status": "proved",
   "theorems": [
    "Verif.C10_random",
    "Verif.C10_complete"
   ],
   "note": "random and complete after every history."
  },
  {
   "property": "C11",
   "status": "proved",
   "theorems": [
    "Verif.C11_draw",
    "Verif.C11_reject",
    "Verif.C11_scalar"
   ],
   "note": "Every state; the rejected label vectors and the scalar-alpha constructor are covered too."
  },
  {
   "property": "C12",
   "status": "proved",
   "theorems": [
    "Verif.C12_fitted",
    "Verif.C12_unfitted"
   ],
   "note": "Every state, fitted and unfitted."
  },
  {
   "property": "C13",
   "status": "proved",
   "theorems": [
    "Verif.C13_pitmanYor",
    "Verif.C13_betaInBeta",
    "Verif.C13_size_zero_differs"
   ],
   "note": "Lockstep simulation of whole histories with sizes >= 1, as the quantifier says; C13_size_zero_differs shows the restriction is needed."
  },
  {
   "property": "C14",
   "status": "partial",
   "theorems": [
    "Verif.C14_fitted_partial",
    "Verif.C14_unfitted_partial",
    "Verif.C14_unfitted_refuted",
    "Verif.C14_complete_refuted"
   ],
   "note": "random on a fitted object after every history; without data the parameter is the stored p (never drawn) and complete after random mixes two parameters: both refuted with witnesses."
  },
  {
   "property": "C15",
   "status": "partial",
   "theorems": [
    "Verif.C15_partial",
    "Verif.C15_single_group_fails",
    "Verif.C15_refuted"
   ],
   "note": "Every history with a=0 or at least two groups; for a single group and a>0 random always raises ValueError (proved)."
  },
  {
   "property": "C16",
   "status": "proved",
   "theorems": [
    "Verif.C16_geometric"
   ],
   "note": "Invariant over all histories."
  },
  {
   "property": "C17",
   "status": "proved",
   "theorems": [
    "Verif.C17_random",
    "Verif.C17_complete",
    "Verif.C17_tail",
    "Verif.C17_aligned"
   ],
   "note": "Every history with n>=0, alpha>0 and sizes as quantified; random, complete, tail and the alignment of sticks and binomials."
  },
  {
   "property": "C18",
   "status": "partial",
   "theorems": [
    "Verif.C18_random_partial",
    "Verif.C18_complete_partial",
    "Verif.C18_random_refuted",
    "Verif.C18_complete_refuted"
   ],
   "note": "Proved for random(size>=1) of an unfitted object whose previous draw was not random(0), and complete on objects with sticks (or n != 1); the other cases raise IndexError (refuted with witnesses)."
  },
  {
   "property": "C19",
   "status": "partial",
   "theorems": [
    "Verif.C19_boundary_partial",
    "Verif.C19_occupied_partial",
    "Verif.C19_fails",
    "Verif.C19_refuted",
    "Verif.C19_after_zero_refuted"
   ],
   "note": "Proved for p=0, p=1 and see C19_occupied_partial; refuted in general (division 0/0 gives nan, ValueError)."
  },
  {
   "property": "C20",
   "status": "proved",
   "theorems": [
    "Verif.C20_mass",
    "Verif.C20_strict_refuted"
   ],
   "note": "Every class using the base tail, every state and generator. The documentation says strictly more than x: refuted with a witness (C20_strict_refuted)."
  },
  {
   "property": "C21",
   "status": "partial",
   "theorems": [
    "Verif.C21_rejects",
    "Verif.C21_dirichletProcess_partial",
    "Verif.C21_pitmanYor_partial",
    "Verif.C21_betaInBeta_partial",
    "Verif.C21_betaBinomial_partial",
    "Verif.C21_geometric_rejects",
    "Verif.C21_geometric_partial",
    "Verif.C21_refuted"
   ],
   "note": "x outside [0,1) is rejected with no effect for every class and state; the converse (no ValueError otherwise) is proved after every history for DirichletProcess, PitmanYor, BetaInBeta, BetaBinomial and, under 0<p<1, Geometric; refuted in general."
  },
  {
   "property": "C22",
   "status": "partial",
   "theorems": [
    "Verif.C22_nothing",
    "Verif.C22_dirichletProcess_drawn_partial",
    "Verif.C22_dirichletProcess_fresh_partial",
    "Verif.C22_pitmanYor_drawn",
    "Verif.C22_pitmanYor_fresh",
    "Verif.C22_betaInBeta_drawn_partial",
    "Verif.C22_betaInBeta_fresh_partial",
    "Verif.C22_betaBinomial_drawn_partial",
    "Verif.C22_betaBinomial_fresh_partial",
    "Verif.C22_betaBernoulli_drawn_partial",
    "Verif.C22_betaBernoulli_fresh_partial",
    "Verif.C22_betaInDirichlet_drawn_partial",
    "Verif.C22_betaInDirichlet_fresh_partial",
    "Verif.C22_refuted"
   ],
   "note": "Proved from drawn states and from fresh states; refuted for the states in which get_weights() does not belong to the current sticks."
  },
  {
   "property": "C23",
   "status": "partial",
   "theorems": [
    "Verif.C23_dirichletProcess_partial",
    "Verif.C23_pitmanYor_partial",
    "Verif.C23_refuted"
   ],
   "note": "Termination for every stream is false (refuted: sticks all 0). Proved for every stream whose sticks are bounded below; with probability one: C96."
  },
  {
   "property": "C24",
   "status": "partial",
   "theorems": [
    "Verif.C24_dirichletProcess_partial",
    "Verif.C24_pitmanYor",
    "Verif.C24_betaInBeta_partial",
    "Verif.C24_betaBinomial_partial",
    "Verif.C24_betaBernoulli_partial",
    "Verif.C24_betaInDirichlet_partial",
    "Verif.C24_geometric_refuted"
   ],
   "note": "Every later sequence of complete/tail/structure calls for the stick-breaking classes; refuted for Geometric, whose tail truncates."
  },
  {
   "property": "C25",
   "status": "partial",
   "theorems": [
    "Verif.C25_refuted",
    "Verif.C25_partial"
   ],
   "note": "Refuted with a witness; proved: it reaches x exactly when the logarithm ratio is an integer or the truncated size suffices (closed form of the size)."
  },
  {
   "property": "C26",
   "status": "proved",
   "theorems": [
    "Verif.C26_inverse_cdf",
    "Verif.C26_zero_weight",
    "Verif.C26_at_zero"
   ],
   "note": "Every class, every uniform in [0,1); the boundary u=0 is C26_at_zero."
  },
  {
   "property": "C27",
   "status": "partial",
   "theorems": [
    "Verif.C27_refuted",
    "Verif.C27_partial"
   ],
   "note": "Refuted: random_assignment() raises for every state; the one-element call random_assignment(1) is what works."
  },
  {
   "property": "C28",
   "status": "proved",
   "theorems": [
    "Verif.C28_normalized",
    "Verif.C28_ratio",
    "Verif.C28_cumulative"
   ],
   "note": "Every weight vector with positive sum."
  },
  {
   "property": "C29",
   "status": "partial",
   "theorems": [
    "Verif.C29_value",
    "Verif.C29_order",
    "Verif.C29_dirichletProcess_total",
    "Verif.C29_pitmanYor_total",
    "Verif.C29_betaInBeta_total",
    "Verif.C29_betaBinomial_total",
    "Verif.C29_geometric_total",
    "Verif.C29_keeps",
    "Verif.C29_equalWeighting_refuted"
   ],
   "note": "Value and order-independence for every class and state; totality after every history for the five classes whose complete always succeeds; kept weights for the stick-breaking classes; refuted for EqualWeighting (IndexError beyond n)."
  },
  {
   "property": "C30",
   "status": "partial",
   "theorems": [
    "Verif.C30_dirichletProcess_partial",
    "Verif.C30_pitmanYor",
    "Verif.C30_betaBinomial",
    "Verif.C30_dirichletDistribution",
    "Verif.C30_equalWeighting",
    "Verif.C30_frequencyWeighting",
    "Verif.C30_geometric_partial",
    "Verif.C30_betaBernoulli_partial",
    "Verif.C30_betaInBeta_partial",
    "Verif.C30_betaInDirichlet_partial",
    "Verif.C30_reset",
    "Verif.C30_betaInBeta_refuted",
    "Verif.C30_betaInBeta_static_refuted",
    "Verif.C30_betaBernoulli_refuted",
    "Verif.C30_dirichletProcess_refuted",
    "Verif.C30_betaInDirichlet_refuted"
   ],
   "note": "Proved (relationally, for every pair of objects agreeing only on hyper-parameters and labels) for PitmanYor, BetaBinomial, DirichletDistribution, Equal, Frequency; for the other classes under stated conditions, with witnesses that the claim fails without them."
  },
  {
   "property": "C31",
   "status": "proved",
   "theorems": [
    "Verif.C31_dirichletProcess",
    "Verif.C31_pitmanYor",
    "Verif.C31_geometric",
    "Verif.C31_betaInBeta",
    "Verif.C31_betaBinomial",
    "Verif.C31_betaBernoulli",
    "Verif.C31_betaInDirichlet",
    "Verif.C31_reset"
   ],
   "note": "All seven stick-breaking classes, after every history."
  },
  {
   "property": "C32",
   "status": "partial",
   "theorems": [
    "Verif.C32_dirichletProcess",
    "Verif.C32_pitmanYor",
    "Verif.C32_geometric",
    "Verif.C32_betaInBeta",
    "Verif.C32_betaBinomial",
    "Verif.C32_betaBernoulli",
    "Verif.C32_dirichletDistribution",
    "Verif.C32_betaInDirichlet_partial",
    "Verif.C32_equalWeighting_refuted",
    "Verif.C32_frequencyWeighting_refuted",
    "Verif.C32_none_dirichletProcess",
    "Verif.C32_none_pitmanYor",
    "Verif.C32_none_geometric",
    "Verif.C32_none_betaBernoulli"
   ],
   "note": "Proved for the seven classes that check; refuted for EqualWeighting and FrequencyWeighting, which accept any size."
  },
  {
   "property": "C33",
   "status": "proved",
   "theorems": [
    "Verif.C33_dirichletProcess",
    "Verif.C33_pitmanYor",
    "Verif.C33_betaInBeta_partial",
    "Verif.C33_betaInBeta_refuted"
   ],
   "note": "DirichletProcess and PitmanYor for all stick vectors; additionally BetaInBeta for x<1, with the x=1 ZeroDivisionError as witness."
  },
  {
   "property": "C34",
   "status": "proved",
   "theorems": [
    "Verif.C34_stick",
    "Verif.C34_probability"
   ],
   "note": "All matrices and alpha>0."
  },
  {
   "property": "C35",
   "status": "partial",
   "theorems": [
    "Verif.C35_accepts",
    "Verif.C35_probability",
    "Verif.C35_beyond_partial",
    "Verif.C35_refuted"
   ],
   "note": "j<n and j>n proved; j=n raises IndexError after every fit (refuted)."
  },
  {
   "property": "C36",
   "status": "partial",
   "theorems": [
    "Verif.C36_pitmanYor_partial",
    "Verif.C36_pitmanYor_refuted",
    "Verif.C36_geometric_partial",
    "Verif.C36_geometric_refuted"
   ],
   "note": "Below the truncation proved; at it PitmanYor raises IndexError and at or beyond it Geometric returns 1 (refuted for every fit)."
  },
  {
   "property": "C37",
   "status": "partial",
   "theorems": [
    "Verif.C37_dirichletProcess",
    "Verif.C37_pitmanYor_partial",
    "Verif.C37_pitmanYor_refuted",
    "Verif.C37_dirichletDistribution",
    "Verif.C37_geometric_partial",
    "Verif.C37_geometric_refuted"
   ],
   "note": "DirichletProcess and DirichletDistribution proved against the recorded draws of random; PitmanYor (pyd != 0) and Geometric refuted for all label vectors, with what does hold as partial theorems."
  },
  {
   "property": "C38",
   "status": "partial",
   "theorems": [
    "Verif.C38_dirichletProcess",
    "Verif.C38_pitmanYor",
    "Verif.C38_dirichletDistribution",
    "Verif.C38_not_fitted",
    "Verif.C38_geometric_difference",
    "Verif.C38_geometric_refuted",
    "Verif.C38_geometric_partial",
    "Verif.C38_equalWeighting_sign",
    "Verif.C38_equalWeighting_refuted",
    "Verif.C38_equalWeighting_partial",
    "Verif.C38_frequencyWeighting_refuted"
   ],
   "note": "DirichletProcess, PitmanYor, DirichletDistribution proved; Geometric, Equal, Frequency refuted with the exact difference."
  },
  {
   "property": "C39",
   "status": "partial",
   "theorems": [
    "Verif.C39_dirichletProcess",
    "Verif.C39_pitmanYor",
    "Verif.C39_geometric",
    "Verif.C39_not_fitted",
    "Verif.C39_dirichletDistribution_refuted"
   ],
   "note": "Stick-breaking classes proved; DirichletDistribution refuted for every fit and component."
  },
  {
   "property": "C40",
   "status": "proved",
   "theorems": [
    "Verif.C40_dirichletProcess",
    "Verif.C40_pitmanYor",
    "Verif.C40_geometric",
    "Verif.C40_dirichletDistribution"
   ],
   "note": "All four classes; the product does not depend on the chosen mode of a multimodal factor."
  },
  {
   "property": "C41",
   "status": "proved",
   "theorems": [
    "Verif.Mix.C41_cold",
    "Verif.Mix.C41_cold_of_init",
    "Verif.Mix.C41_warm",
    "Verif.Mix.C41_history",
    "Verif.Mix.C41_zero_step",
    "Verif.Mix.C41_after_failed_cold",
    "Verif.Mix.C41_getters"
   ],
   "note": "Every weight class, data set, surrounding and object state; a fit that fails after wiping the saved states, followed by a warm fit, leaves the counts inconsistent (C41_after_failed_cold, outside the quantifier of the claim)."
  },
  {
   "property": "C42",
   "status": "proved",
   "theorems": [
    "Verif.Mix.C42_affinity",
    "Verif.Mix.C42_not_fitted"
   ],
   "note": "After a cold fit that returned and any sequence of warm fits, returning or raising."
  },
  {
   "property": "C43",
   "status": "partial",
   "theorems": [
    "Verif.Mix.C43_best",
    "Verif.Mix.C43_monotone",
    "Verif.Mix.C43_first_maximum",
    "Verif.Mix.C43_all_bot_partial",
    "Verif.Mix.C43_first_refuted"
   ],
   "note": "Proved for every history of fits, except that when all visited states have log-likelihood minus infinity the last one instead of the first is stored (refuted, C43_first_refuted; C43_all_bot_partial)."
  },
  {
   "property": "C44",
   "status": "partial",
   "theorems": [
    "Verif.Mix.C44_forgets_partial",
    "Verif.Mix.C44_map_refuted",
    "Verif.Mix.C44_prior_refuted"
   ],
   "note": "Proved: data, labels, atoms, slice variables, saved states, counts and affinity of earlier calls have no influence. Refuted: the MAP state and the priors derived from the first data set survive a cold fit."
  },
  {
   "property": "C45",
   "status": "partial",
   "theorems": [
    "Verif.Mix.C45_saved",
    "Verif.Mix.C45_eap_density",
    "Verif.Mix.C45_no_key_error",
    "Verif.Mix.C45_map_partial",
    "Verif.Mix.C45_map_refuted"
   ],
   "note": "Every saved state of every history can be evaluated, for every class of the library; the MAP state of a fit can be the initial one, which may lack atoms: KeyError (refuted, C45_map_refuted)."
  },
  {
   "property": "C46",
   "status": "proved",
   "theorems": [
    "Verif.Mix.C46_step",
    "Verif.Mix.C46_gumbel",
    "Verif.Mix.C46_saved",
    "Verif.Mix.C46_start",
    "Verif.Mix.C46_cover"
   ],
   "note": "Every class of the library, every history of fits."
  },
  {
   "property": "C47",
   "status": "partial",
   "theorems": [
    "Verif.Mix.C47_periods",
    "Verif.Mix.C47_all",
    "Verif.Mix.C47_run",
    "Verif.Mix.C47_zero",
    "Verif.Mix.C47_zero_refuted"
   ],
   "note": "Proved for every number of periods >= 1 and for None; periods=0 uses all states (refuted, C47_zero_refuted)."
  },
  {
   "property": "C48",
   "status": "proved",
   "theorems": [
    "Verif.Mix.C48_total",
    "Verif.Mix.C48_component",
    "Verif.Mix.C48_decomposition",
    "Verif.Mix.C48_missing_atom",
    "Verif.Mix.C48_other_dim"
   ],
   "note": "Every density function, weight vector and dictionary with the needed atoms; a missing atom raises KeyError and a dim of another type gives [0.] (both proved)."
  },
  {
   "property": "C49",
   "status": "proved",
   "theorems": [
    "Verif.Mix.C49_labels",
    "Verif.Mix.C49_responsibilities",
    "Verif.Mix.C49_uncertainty",
    "Verif.Mix.C49_one_point"
   ],
   "note": "At least two points; a single point raises AxisError (C49_one_point)."
  },
  {
   "property": "C50",
   "status": "proved",
   "theorems": [
    "Verif.Mix.C50_relabel"
   ],
   "note": "Every label vector and every valid argsort."
  },
  {
   "property": "C51",
   "status": "proved",
   "theorems": [
    "Verif.Mix.C51_batching",
    "Verif.Mix.C51_batches",
    "Verif.Mix.C51_reordering",
    "Verif.Mix.C51_counts",
    "Verif.Mix.C51_mean",
    "Verif.Mix.C51_psi"
   ],
   "note": "Every dimension; any number of batches (C51_batches)."
  },
  {
   "property": "C52",
   "status": "partial",
   "theorems": [
    "Verif.Mix.VM.C52_iterations",
    "Verif.Mix.VM.C52_random",
    "Verif.Mix.VM.C52_kmeans_partial",
    "Verif.Mix.VM.C52_warm",
    "Verif.Mix.VM.C52_log",
    "Verif.Mix.VM.C52_empty_group_refuted",
    "Verif.Mix.VM.C52_classes"
   ],
   "note": "Every class, any number of iterations, random and warm starts, any tolerance; k-means start only when every group has an observation. With an empty group (fewer distinct points than groups) all entries are nan and the fit still reports convergence (C52_empty_group_refuted)."
  },
  {
   "property": "C53",
   "status": "partial",
   "theorems": [
    "Verif.Mix.VM.C53_flag",
    "Verif.Mix.VM.C53_stops",
    "Verif.Mix.VM.C53_fuel",
    "Verif.Mix.VM.C53_truthful_partial",
    "Verif.Mix.VM.C53_nan_refuted",
    "Verif.Mix.VM.C53_refit_refuted"
   ],
   "note": "var_converged is set exactly when the loop ends before total_iter, and every loop ends; a true flag means a small ELBO change only for a first fit without nan: refuted for nan and for a second fit (C53_nan_refuted, C53_refit_refuted)."
  },
  {
   "property": "C54",
   "status": "partial",
   "theorems": [
    "Verif.Mix.VM.C54_cancel_refuted",
    "Verif.Mix.VM.C54_unused_refuted",
    "Verif.Mix.VM.C54_gap_refuted",
    "Verif.Mix.VM.C54_constant_partial"
   ],
   "note": "Refuted: the entropy term of the weights is computed with the prior, so it cancels (C54_cancel_refuted, C54_unused_refuted, C54_gap_refuted); C54_constant_partial says which constant part agrees."
  },
  {
   "property": "C55",
   "status": "proved",
   "theorems": [
    "Verif.Mix.VM.C55_fitted",
    "Verif.Mix.VM.C55_new",
    "Verif.Mix.VM.C55_list_refuted",
    "Verif.Mix.VM.C55_after_fit",
    "Verif.Mix.VM.C55_consensus"
   ],
   "note": "Every set of probability columns (see C52 for nan), for the fitted data and arrays of new points; a list raises AttributeError (C55_list_refuted)."
  },
  {
   "property": "C56",
   "status": "partial",
   "theorems": [
    "Verif.Mix.VM.C56_normalisation",
    "Verif.Mix.VM.C56_max",
    "Verif.Mix.VM.C56_mean",
    "Verif.Mix.VM.C56_new_partial",
    "Verif.Mix.VM.C56_frequency_refuted"
   ],
   "note": "Every shift, every column with a finite score; new points for every fitted state whose expected log weights are numbers. With a weight of minus infinity (frequency weighting, more groups than observations) every label is 0 (C56_frequency_refuted)."
  },
  {
   "property": "C57",
   "status": "partial",
   "theorems": [
    "Verif.Mix.VM.C57_fitted_partial",
    "Verif.Mix.VM.C57_new_refuted"
   ],
   "note": "Fitted data: proved for every class and state. New data: the returned object is an n-by-n matrix of probabilities, not one number per point (C57_new_refuted)."
  },
  {
   "property": "C58",
   "status": "partial",
   "theorems": [
    "Verif.Mix.VM.C58_equalWeighting",
    "Verif.Mix.VM.C58_eap_partial",
    "Verif.Mix.VM.C58_after_fit",
    "Verif.Mix.VM.C58_classes",
    "Verif.Mix.VM.C58_map_refuted",
    "Verif.Mix.VM.C58_int_refuted",
    "Verif.Mix.VM.C58_map_partial"
   ],
   "note": "Expected density proved for every class after every fit, all coordinates or a list of them; the MAP density with explicit dim. The default dim of var_map_density raises TypeError (C58_map_refuted), an int dim IndexError (C58_int_refuted)."
  },
  {
   "property": "C59",
   "status": "partial",
   "theorems": [
    "Verif.Mix.VM.C59_gibbs_flag",
    "Verif.Mix.VM.C59_var_flag",
    "Verif.Mix.VM.C59_gibbs",
    "Verif.Mix.VM.C59_var",
    "Verif.Mix.VM.C59_readable",
    "Verif.Mix.VM.C59_pairplot_partial",
    "Verif.Mix.VM.C59_pairplot_refuted"
   ],
   "note": "Every history of fits, returning or raising, for every result method except the pairplot: on an object never fitted it raises IndexError instead of NotFittedError (C59_pairplot_refuted)."
  },
  {
   "property": "C60",
   "status": "partial",
   "theorems": [
    "Verif.Mix.GM.C60_bad_data_partial",
    "Verif.Mix.GM.C60_wiped_refuted",
    "Verif.Mix.GM.C60_warm_partial",
    "Verif.Mix.GM.C60_map_partial",
    "Verif.Mix.GM.C60_refuted"
   ],
   "note": "Refused observations leave the object unchanged, a failing warm fit keeps saved states, the MAP only improves. A failing cold fit wipes the saved states while the flag stays true (C60_wiped_refuted, C60_refuted)."
  },
  {
   "property": "C61",
   "status": "partial",
   "theorems": [
    "Verif.Mix.C61_column",
    "Verif.Mix.C61_matrix",
    "Verif.Mix.C61_nested",
    "Verif.Mix.C61_number",
    "Verif.Mix.C61_own",
    "Verif.Mix.C61_type_error",
    "Verif.Mix.C61_fit_partial",
    "Verif.Mix.C61_series_refuted",
    "Verif.Mix.C61_deep_refuted"
   ],
   "note": "Columns, matrices, nested lists, numbers and rejected types. A pandas Series is not reshaped and three-dimensional arrays are accepted (C61_series_refuted, C61_deep_refuted)."
  },
  {
   "property": "C62",
   "status": "partial",
   "theorems": [
    "Verif.Mix.Gens.C62_fresh",
    "Verif.Mix.Gens.C62_same_seed",
    "Verif.Mix.Gens.C62_same_seed_mixture",
    "Verif.Mix.Gens.C62_generator",
    "Verif.Mix.Gens.C62_shared",
    "Verif.Mix.Gens.C62_type_error",
    "Verif.Mix.Gens.C62_negative_refuted",
    "Verif.Mix.Gens.C62_int_twins"
   ],
   "note": "Fresh generators, equal seeds, shared generators and type errors, for any number of draws. A negative int raises ValueError (C62_negative_refuted)."
  },
  {
   "property": "C63",
   "status": "proved",
   "theorems": [
    "Verif.Mix.C63_assert",
    "Verif.Mix.C63_saves",
    "Verif.Mix.C63_saves_warm",
    "Verif.Mix.C63_float_exact",
    "Verif.Mix.C63_float_refuted"
   ],
   "note": "AssertionError for all numbers; saved states for integer settings, the documented type. The constructor also takes floats, which it truncates after the comparison: C63_float_refuted, C63_float_exact."
  },
  {
   "property": "C64",
   "status": "proved",
   "theorems": [
    "Verif.Mix.C64_column",
    "Verif.Mix.C64_empty",
    "Verif.Mix.C64_matrix",
    "Verif.Mix.C64_reachable"
   ],
   "note": "Also: every finite component is reachable (C64_reachable)."
  },
  {
   "property": "C65",
   "status": "partial",
   "theorems": [
    "Verif.Mix.C65_scalar",
    "Verif.Mix.C65_scalar_returns",
    "Verif.Mix.C65_sized_partial",
    "Verif.Mix.C65_stale_height",
    "Verif.Mix.C65_biased"
   ],
   "note": "Scalar call proved; with size the points are under their heights, but the heights are reused after rejections: refuted (C65_stale_height, C65_biased)."
  },
  {
   "property": "C66",
   "status": "proved",
   "theorems": [
    "Verif.Mix.C66_value",
    "Verif.Mix.C66_map"
   ],
   "note": "Every weight class, surrounding and state; minus infinity included."
  },
  {
   "property": "C67",
   "status": "proved",
   "theorems": [
    "Verif.Mix.C67_step",
    "Verif.Mix.C67_distinct",
    "Verif.Mix.C67_count"
   ],
   "note": "Every step from every state, and every history of fits, returning or raising."
  },
  {
   "property": "C68",
   "status": "partial",
   "theorems": [
    "Verif.Mix.VM.C68_gap",
    "Verif.Mix.VM.C68_params_partial",
    "Verif.Mix.VM.C68_one_partial",
    "Verif.Mix.VM.C68_scatter_refuted",
    "Verif.Mix.VM.C68_outer_refuted"
   ],
   "note": "The exact difference between the update and the textbook update is given (C68_gap); it vanishes in dimension one and when components are hard (C68_one_partial, C68_params_partial). Refuted otherwise (C68_scatter_refuted, C68_outer_refuted)."
  },
  {
   "property": "C69",
   "status": "partial",
   "theorems": [
    "Verif.Mix.C69_normal_gap",
    "Verif.Mix.C69_students_gap",
    "Verif.Mix.C69_wishart_gap",
    "Verif.Mix.C69_normal_iff",
    "Verif.Mix.C69_students_iff",
    "Verif.Mix.C69_wishart_iff",
    "Verif.Mix.C69_one_partial",
    "Verif.Mix.C69_gaussian_partial",
    "Verif.Mix.C69_scaled_refuted",
    "Verif.Mix.C69_refuted"
   ],
   "note": "The exact difference between the functions and the textbook densities is given; equality holds exactly when the Frobenius norm equals the determinant (C69_*_iff), e.g. in dimension one. Refuted otherwise."
  },
  {
   "property": "C70",
   "status": "partial",
   "theorems": [
    "Verif.C70_partial",
    "Verif.C70_ends_partial",
    "Verif.C70_unknown",
    "Verif.C70_refuted"
   ],
   "note": "Every method except rejection-sampling, and that one with x=0 or x=1. For 0<x<1 it always raises ValueError although the constructor accepts it (C70_refuted)."
  },
  {
   "property": "C71",
   "status": "proved",
   "theorems": [
    "Verif.C71_symmetric",
    "Verif.C71_sequence",
    "Verif.C71_addition",
    "Verif.C71_total",
    "Verif.C71_zero"
   ],
   "note": "Spec: seating one observation at a time (Crp.seat, Crp.prob). Over the reals with Gamma."
  },
  {
   "property": "C72",
   "status": "partial",
   "theorems": [
    "Verif.C72_partial",
    "Verif.C72_refuted"
   ],
   "note": "Every a > 0 and every vector of sticks. For a = 0, the default, the result is nan for every vector (C72_refuted)."
  },
  {
   "property": "C73",
   "status": "proved",
   "theorems": [
    "Verif.C73_path",
    "Verif.C73_law"
   ],
   "note": "Path statement for every generator (C73_path) and the law of the pattern of ties (C73_law)."
  },
  {
   "property": "C74",
   "status": "partial",
   "theorems": [
    "Verif.C74_pitmanYor",
    "Verif.C74_betaInBeta_partial",
    "Verif.C74_betaBernoulli_one_refuted",
    "Verif.C74_betaBernoulli_zero_refuted",
    "Verif.C74_betaBinomial_refuted",
    "Verif.C74_geometric_refuted"
   ],
   "note": "Pitman-Yor agrees; BetaInBeta(x=0) up to the log-density of the unused p. Refuted for BetaBernoulli, BetaBinomial and the geometric boundary, with the exact difference."
  },
  {
   "property": "C75",
   "status": "partial",
   "theorems": [
    "Verif.C75_exact",
    "Verif.C75_partial",
    "Verif.C75_refuted"
   ],
   "note": "The exact rule for every size is C75_exact; one common p when no more weights are asked for than the labels need (C75_partial). Refuted otherwise: p is updated again before the appended sticks."
  },
  {
   "property": "C76",
   "status": "partial",
   "theorems": [
    "Verif.C76_forgets",
    "Verif.C76_maxLikelihood_partial",
    "Verif.C76_inverseSampling_partial",
    "Verif.C76_complete_partial",
    "Verif.C76_refuted"
   ],
   "note": "complete fits p to the sticks held; after random the p kept is the one fitted to the new sticks. Refuted for the p with which random draws: it never depends on the sticks held (C76_forgets, C76_refuted)."
  },
  {
   "property": "C77",
   "status": "proved",
   "theorems": [
    "Verif.C77_objective",
    "Verif.C77_noSticks"
   ],
   "note": "Any history, any log-density; the state without sticks is described by C77_noSticks."
  },
  {
   "property": "C78",
   "status": "partial",
   "theorems": [
    "Verif.C78_weights",
    "Verif.C78_partial",
    "Verif.C78_refuted"
   ],
   "note": "The weights handed to the Gumbel draw are exact for every state (C78_weights); right for alpha=1 (C78_partial), wrong for every other alpha: the new label lacks the factor alpha (C78_refuted)."
  },
  {
   "property": "C79",
   "status": "proved",
   "theorems": [
    "Verif.C79_prior",
    "Verif.C79_complete",
    "Verif.C79_fitted",
    "Verif.C79_bayes"
   ],
   "note": "Exact streams and parameters for prior, complete and fitted draws; Bayes form over the reals with Mathlib's Beta density (C79_bayes)."
  },
  {
   "property": "C80",
   "status": "partial",
   "theorems": [
    "Verif.C80_prior_partial",
    "Verif.C80_complete",
    "Verif.C80_fitted",
    "Verif.C80_bayes"
   ],
   "note": "The prior statement leaves out histories with random(0), where C18 fails. Everything else for all histories."
  },
  {
   "property": "C81",
   "status": "partial",
   "theorems": [
    "Verif.C81_code",
    "Verif.C81_last",
    "Verif.C81_partial",
    "Verif.C81_refuted"
   ],
   "note": "Exact description of what is sampled (C81_code, C81_last). Right for p=0 (C81_partial), refuted for every 0<p<1 with fit([0,1,2]) (C81_refuted)."
  },
  {
   "property": "C82",
   "status": "proved",
   "theorems": [
    "Verif.C82_sticks",
    "Verif.C82_result"
   ],
   "note": "Every draw with data that returns; z is the label vector held before the call, cut or filled with zeros."
  },
  {
   "property": "C83",
   "status": "partial",
   "theorems": [
    "Verif.C83_dirichletProcess",
    "Verif.C83_pitmanYor",
    "Verif.C83_betaInBeta",
    "Verif.C83_geometric",
    "Verif.C83_dirichletDistribution",
    "Verif.C83_betaBinomial_partial",
    "Verif.C83_betaBinomial_refuted",
    "Verif.C83_betaBernoulli_refuted",
    "Verif.C83_betaInDirichlet_partial",
    "Verif.C83_betaInDirichlet_refuted",
    "Verif.C83_betaInBeta_one_partial",
    "Verif.C83_betaInBeta_one_refuted",
    "Verif.C83_betaInBeta_static_partial",
    "Verif.C83_betaInBeta_geometric",
    "Verif.C83_betaInBeta_refuted",
    "Verif.C83_betaInBeta_nested_refuted"
   ],
   "note": "Equality of laws for DirichletProcess, PitmanYorProcess, GeometricProcess, DirichletDistribution, and BetaInBeta(x=0) under ordinary calls; BetaBinomial only for n=0 (C83_betaBinomial_partial) and refuted for every n>=1 (C83_betaBinomial_refuted); BetaInBeta(0<x<1) with p_method static and one stored p (C83_betaInBeta_static_partial), and refuted for the default p_method geometric, both for the prior that the object draws (C83_betaInBeta_refuted, every parameter, labels [0] or [1]) and for the documented prior with p random (C83_betaInBeta_nested_refuted, every parameter); BetaBernoulli refuted for every 0<p<1 (C83_betaBernoulli_refuted). BetaInDirichlet with a=0 (C83_betaInDirichlet_partial); with a>0 random raises for every seed when all labels are 0 (C83_betaInDirichlet_refuted). BetaInBeta(x=1): posterior of the documented geometric model (C83_betaInBeta_one_partial), refuted for the law the object draws before fit, which uses the stored p (C83_betaInBeta_one_refuted). Not covered: BetaInDirichlet with a>0 and two groups or more, other p_methods."
  },
  {
   "property": "C84",
   "status": "partial",
   "theorems": [
    "Verif.C84_betaBinomial",
    "Verif.C84_betaInDirichlet",
    "Verif.C84_betaInDirichlet_joint",
    "Verif.C84_betaBernoulli_partial",
    "Verif.C84_betaBernoulli_joint_partial"
   ],
   "note": "BetaBinomial and BetaInDirichlet for every history; BetaBernoulli for histories without random(0), after which random fails (C18). Joint laws for BetaInDirichlet (a > 0) and BetaBernoulli."
  },
  {
   "property": "C85",
   "status": "proved",
   "theorems": [
    "Verif.Mix.C85_column",
    "Verif.Mix.C85_matrix",
    "Verif.Mix.C85_generator",
    "Verif.Mix.C85_stream",
    "Verif.Mix.C85_update"
   ],
   "note": "Exact law over a stream of independent uniform variables, whatever -log(-log(0)) is (C85_column, C85_matrix, C85_stream, C85_update). C85_generator: the law RandGen assumes for the Gumbel draw is the law of the code."
  },
  {
   "property": "C86",
   "status": "partial",
   "theorems": [
    "Verif.Mix.C86_partial",
    "Verif.Mix.C86_sequence_partial",
    "Verif.Mix.C86_finite_partial",
    "Verif.Mix.C86_dirichletProcess_partial",
    "Verif.Mix.C86_refuted"
   ],
   "note": "False as stated: the slice levels are shifted by the machine epsilon, and a level above all weights gives the label 0 (C86_refuted, for every eps in (0, 1/2)). Proved for eps = 0: for every class under the hypothesis that the completion ends with the weights above the levels (C86_partial), discharged for the classes that inherit tail with total one (C86_sequence_partial), finite weights (C86_finite_partial) and the Dirichlet process (C86_dirichletProcess_partial)."
  },
  {
   "property": "C87",
   "status": "partial",
   "theorems": [
    "Verif.C87_dirichletProcess",
    "Verif.C87_dirichletProcess_all",
    "Verif.C87_pitmanYor",
    "Verif.C87_dirichletDistribution",
    "Verif.C87_geometric_partial",
    "Verif.C87_geometric_refuted",
    "Verif.C87_dirichletProcess_random",
    "Verif.C87_pitmanYor_random_partial",
    "Verif.C87_dirichletProcess_random_last",
    "Verif.C87_pitmanYor_random_refuted",
    "Verif.C87_dirichletDistribution_random",
    "Verif.C87_geometric_total"
   ],
   "note": "Proved for DirichletProcess, PitmanYorProcess and DirichletDistribution, and the agreement with random() for DirichletProcess and DirichletDistribution. False for GeometricProcess, which returns m(1-m)^j with the mean m (C87_geometric_refuted, every fit; in total over the groups too large as well, C87_geometric_total), and the agreement with random() is false for PitmanYorProcess with a discount (C87_pitmanYor_random_refuted)."
  },
  {
   "property": "C88",
   "status": "partial",
   "theorems": [
    "Verif.C88_mean_log_beta",
    "Verif.C88_dirichletProcess",
    "Verif.C88_pitmanYor",
    "Verif.C88_geometric",
    "Verif.C88_dirichletDistribution_refuted",
    "Verif.C88_labels_dirichletProcess"
   ],
   "note": "Proved as real integrals for DirichletProcess, PitmanYorProcess, GeometricProcess and mean_log_beta (E log x = psi(a) - psi(a+b) by differentiating the Beta integral). False for DirichletDistribution, for every fit and component (C88_dirichletDistribution_refuted)."
  },
  {
   "property": "C89",
   "status": "partial",
   "theorems": [
    "Verif.C89_q_dirichletProcess",
    "Verif.C89_q_pitmanYor",
    "Verif.C89_geometric",
    "Verif.C89_geometric_divergence",
    "Verif.C89_p_dirichletProcess",
    "Verif.C89_p_dirichletProcess_refuted",
    "Verif.C89_dirichletProcess_divergence",
    "Verif.C89_dirichletProcess_divergence_refuted",
    "Verif.C89_p_pitmanYor",
    "Verif.C89_p_pitmanYor_refuted",
    "Verif.C89_q_dirichletDistribution",
    "Verif.C89_q_dirichletDistribution_refuted",
    "Verif.C89_p_dirichletDistribution_refuted"
   ],
   "note": "variational_mean_log_q_w proved for DirichletProcess, PitmanYorProcess, GeometricProcess; variational_mean_log_p_w proved for GeometricProcess, with Gibbs' inequality. False otherwise, with the exact difference: DirichletProcess adds log(alpha) once too often, PitmanYorProcess subtracts log(alpha+(j+1)d) for every j, DirichletDistribution is wrong in both."
  },
  {
   "property": "C90",
   "status": "partial",
   "theorems": [
    "Verif.C90_dirichletProcess",
    "Verif.C90_pitmanYor",
    "Verif.C90_dirichletDistribution",
    "Verif.C90_geometric_partial",
    "Verif.C90_geometric_refuted"
   ],
   "note": "Proved for DirichletProcess, PitmanYorProcess and DirichletDistribution against every probability measure, with uniqueness. False for GeometricProcess for every matrix of probabilities with at least one observation (C90_geometric_refuted); it holds after adding one to the first Beta parameter (C90_geometric_partial)."
  },
  {
   "property": "C91",
   "status": "partial",
   "theorems": [
    "Verif.Mix.VM.C91_softmax_best",
    "Verif.Mix.VM.C91_column_partial",
    "Verif.Mix.VM.C91_update_partial",
    "Verif.Mix.VM.C91_refuted"
   ],
   "note": "The softmax is the unique maximiser (C91_softmax_best). The code adds eps before normalising: every stored responsibility is within k*eps of the optimal one (C91_update_partial), but not optimal unless all scores are equal (C91_refuted)."
  },
  {
   "property": "C92",
   "status": "proved",
   "theorems": [
    "Verif.C92_law",
    "Verif.C92_one"
   ],
   "note": "Joint law for every weight class, state and n (C92_law), marginals (C92_one)."
  },
  {
   "property": "C93",
   "status": "proved",
   "theorems": [
    "Verif.Mix.C93_bayes",
    "Verif.Mix.C93_density",
    "Verif.Mix.C93_step",
    "Verif.Mix.C93_joint",
    "Verif.Mix.C93_measure",
    "Verif.Mix.C93_posterior",
    "Verif.Mix.C93_one"
   ],
   "note": "Log-densities (C93_bayes), densities (C93_density), Gibbs step (C93_step), measures (C93_measure, C93_posterior), _theta_log_likelihood (C93_joint). That the law is a probability is a hypothesis of C93_posterior, proved in dimension one (C93_one) and in every dimension in C133. Scipy's logpdf functions are their documented formulas."
  },
  {
   "property": "C94",
   "status": "proved",
   "theorems": [
    "Verif.Mix.C94_joint",
    "Verif.Mix.C94_step",
    "Verif.Mix.C94_total",
    "Verif.Mix.C94_returns",
    "Verif.Mix.C94_normal"
   ],
   "note": "C94_step for any conjugate pair of atoms and densities, C94_normal for normal observations with one coordinate; C94_total: the posterior is a probability; C94_returns: the step returns almost surely. Shift of the slice variables zero; with the shift see C86_refuted."
  },
  {
   "property": "C95",
   "status": "proved",
   "theorems": [
    "Verif.Mix.C95_total",
    "Verif.Mix.C95_step",
    "Verif.Mix.C95_run",
    "Verif.Mix.C95_labels",
    "Verif.Mix.C95_returns",
    "Verif.Mix.C95_start",
    "Verif.Mix.C95_dirichletProcess",
    "Verif.Mix.C95_pitmanYor"
   ],
   "note": "C95_step and C95_run for any stick-breaking class (StickClass) whose sticks exhaust the unit and any conjugate pair of atoms and densities; C95_dirichletProcess and C95_pitmanYor for normal observations with one coordinate; C95_labels for the labels, C95_total: the posterior is a probability, C95_returns: an iteration returns almost surely, C95_start: states with the posterior law. Every iteration reads fresh draws. Shift of the slice variables zero; with the shift see C86_refuted."
  },
  {
   "property": "C96",
   "status": "partial",
   "theorems": [
    "Verif.C96_dirichletProcess",
    "Verif.C96_pitmanYor",
    "Verif.C96_betaBinomial",
    "Verif.C96_betaBernoulli",
    "Verif.C96_betaInDirichlet",
    "Verif.C96_betaInBeta_partial",
    "Verif.C96_betaInBeta_optim_partial"
   ],
   "note": "One theorem per class; the null set is the same for all histories and all x. Objects whose stored weights are not those of their sticks (left behind by an exception) are excluded; BetaBernoulli must hold weights (a fresh object raises, C18), BetaInDirichlet is fresh or just drawn. With the p_methods that call an optimiser (C96_betaInBeta_optim_partial) its answer is assumed to be a measurable function of what it is given; there the null set depends on the state when tail is called. Missing: one null set for all histories in that case."
  },
  {
   "property": "C97",
   "status": "proved",
   "theorems": [
    "Verif.Mix.C97_fresh",
    "Verif.Mix.C97_start",
    "Verif.Mix.C97_labels",
    "Verif.Mix.C97_affinity",
    "Verif.Mix.C97_cold",
    "Verif.Mix.C97_dirichletProcess",
    "Verif.Mix.C97_pitmanYor"
   ],
   "note": "Shift of the slice variables zero; for observations with one coordinate (the general theorem C97_fresh is for every conjugate prior and nowhere vanishing density), from every state that stores no atom of an empty component (true after every cold start, C97_cold) and from random states whose law has a density with respect to the posterior law (C97_start). Outside the claim: the eps > 0 of the code, where the posterior law is not even kept (C86_refuted); deterministic warm starts that hold atoms of empty components; rates."
  },
  {
   "property": "C98",
   "status": "proved",
   "theorems": [
    "Verif.Mix.C98_average",
    "Verif.Mix.C98_affinity",
    "Verif.Mix.C98_groups",
    "Verif.Mix.C98_dirichletProcess",
    "Verif.Mix.C98_pitmanYor"
   ],
   "note": "Shift of the slice variables zero; for observations with one coordinate (C98_average and C98_affinity are for every conjugate prior and nowhere vanishing density), from every state that stores no atom of an empty component (true after every cold start, C97_cold). Outside the claim: the eps > 0 of the code (C86_refuted); deterministic warm starts; rates and almost-sure convergence."
  },
  {
   "property": "C99",
   "status": "partial",
   "theorems": [
    "Verif.Mix.C99_shown",
    "Verif.Mix.C99_iff",
    "Verif.Mix.C99_partial",
    "Verif.Mix.C99_refuted"
   ],
   "note": "Refuted: labels are renumbered by gibbs_map_cluster, components are not, so colour c always shows component c (C99_shown). C99_iff: the colours are right exactly when the components in use have no gap; C99_partial is that case."
  },
  {
   "property": "C100",
   "status": "partial",
   "theorems": [
    "Verif.Mix.C100_iff",
    "Verif.Mix.C100_one_column_refuted",
    "Verif.Mix.C100_eleven_refuted",
    "Verif.Mix.C100_colours_partial",
    "Verif.Mix.C100_colours_refuted",
    "Verif.Mix.C100_all_used"
   ],
   "note": "Refuted for one column (TypeError), for exactly eleven groups (IndexError) and for more than ten groups (two groups with one colour). C100_iff: the figure is returned exactly when there are two columns or more and the number of groups is not eleven; C100_colours_partial: different colours up to ten groups."
  },
  {
   "property": "C101",
   "status": "partial",
   "theorems": [
    "Verif.Mix.C101_distance",
    "Verif.Mix.C101_partial",
    "Verif.Mix.C101_iff",
    "Verif.Mix.C101_area",
    "Verif.Mix.C101_refuted"
   ],
   "note": "Refuted whenever the two columns are correlated (C101_iff): L sqrt(D) L^T is not a square root of L D L^T. C101_partial: right for zero covariance; C101_distance: the distance drawn at each angle; C101_area: the enclosed area is right. Both forms of the output of scipy.linalg.ldl are covered."
  },
  {
   "property": "C102",
   "status": "proved",
   "theorems": [
    "Verif.Mix.C102_places",
    "Verif.Mix.C102_points",
    "Verif.Mix.C102_curves",
    "Verif.Mix.C102_line",
    "Verif.Mix.C102_range",
    "Verif.Mix.C102_sharey"
   ],
   "note": "For every figure the model returns, with no bound on columns, components or observations."
  },
  {
   "property": "C103",
   "status": "partial",
   "theorems": [
    "Verif.C103_partial",
    "Verif.C103_list_refuted",
    "Verif.C103_default_refuted",
    "Verif.C103_type_refuted",
    "Verif.C103_n"
   ],
   "note": "Refuted for every list alpha of another length than n (C103_list_refuted), with the default n = 1 (C103_default_refuted) and for every alpha that is not a list, array, int or float (C103_type_refuted). C103_partial: lists of n entries and numbers. C103_n: the constructor raises exactly for an n that is not an int."
  },
  {
   "property": "C104",
   "status": "proved",
   "theorems": [
    "Verif.Mix.FinMix.C104_total",
    "Verif.Mix.FinMix.C104_step",
    "Verif.Mix.FinMix.C104_run",
    "Verif.Mix.FinMix.C104_labels",
    "Verif.Mix.FinMix.C104_returns",
    "Verif.Mix.FinMix.C104_start",
    "Verif.Mix.FinMix.C104_same",
    "Verif.Mix.FinMix.C104_dirichletDistribution",
    "Verif.Mix.FinMix.C104_equal"
   ],
   "note": "For every conjugate pair of atom law and density (C104_step, C104_run, C104_returns), with the two classes of weights as instances. The shift eps of the slice variables is zero, as stated."
  },
  {
   "property": "C105",
   "status": "proved",
   "theorems": [
    "Verif.Mix.FinMix.C105_fresh",
    "Verif.Mix.FinMix.C105_start",
    "Verif.Mix.FinMix.C105_labels",
    "Verif.Mix.FinMix.C105_affinity",
    "Verif.Mix.FinMix.C105_dirichletDistribution",
    "Verif.Mix.FinMix.C105_equal"
   ],
   "note": "For every conjugate pair whose density vanishes nowhere (C105_fresh, C105_start), with the two classes of weights as instances. That a cold start gives a state as in the hypotheses is C97_cold. The shift eps of the slice variables is zero, as stated."
  },
  {
   "property": "C106",
   "status": "proved",
   "theorems": [
    "Verif.Mix.FinMix.C106_average",
    "Verif.Mix.FinMix.C106_affinity",
    "Verif.Mix.FinMix.C106_groups",
    "Verif.Mix.FinMix.C106_dirichletDistribution",
    "Verif.Mix.FinMix.C106_equal"
   ],
   "note": "For every conjugate pair whose density vanishes nowhere (C106_average), with the two classes of weights as instances. The shift eps of the slice variables is zero, as stated."
  },
  {
   "property": "C107",
   "status": "partial",
   "theorems": [
    "Verif.Mix.C107_partial",
    "Verif.Mix.C107_refuted"
   ],
   "note": "Refuted for every p > 1/2, every data set and all atoms with positive density (C107_refuted): the probability that all labels are 0 grows. C107_partial: the law is kept for p <= 1/2."
  },
  {
   "property": "C108",
   "status": "partial",
   "theorems": [
    "Verif.C108_betaBinomial_value",
    "Verif.C108_betaBinomial_partial",
    "Verif.C108_betaBinomial_ignores",
    "Verif.C108_betaBinomial_refuted",
    "Verif.C108_betaBernoulli_value",
    "Verif.C108_betaBernoulli_partial",
    "Verif.C108_betaBernoulli_ignores",
    "Verif.C108_betaBernoulli_refuted"
   ],
   "note": "Refuted for two sticks or more: the first stick of a BetaBinomial (C108_betaBinomial_refuted) and the new sticks of a BetaBernoulli (C108_betaBernoulli_refuted) are ignored; the exact values are C108_betaBinomial_value and C108_betaBernoulli_value, for every log-density. Right for one stick (the _partial theorems; for BetaBernoulli with first variable 0)."
  },
  {
   "property": "C109",
   "status": "partial",
   "theorems": [
    "Verif.Mix.VM.C109_value",
    "Verif.Mix.VM.C109_gap",
    "Verif.Mix.VM.C109_iff",
    "Verif.Mix.VM.C109_one_partial",
    "Verif.Mix.VM.C109_refuted",
    "Verif.Mix.VM.C109_atoms",
    "Verif.Mix.VM.C109_update",
    "Verif.Mix.VM.C109_step",
    "Verif.Mix.VM.C109_fit",
    "Verif.Mix.VM.C109_fit_partial"
   ],
   "note": "The expectation is a Lebesgue integral over the Bartlett form of the normal-Wishart law (Lemmas/NormalWishart) and its value is proved for every dimension (C109_value). The code differs from it by half of log norm minus log det (C109_gap, C109_iff): right in dimension one (C109_one_partial, C109_fit_partial), wrong for the identity matrix in every dimension from two on (C109_refuted). Properness of the parameters after every update, iteration and fit is proved in full (C109_atoms, C109_update, C109_step, C109_fit)."
  },
  {
   "property": "C110",
   "status": "partial",
   "theorems": [
    "Verif.Mix.VM.C110_data",
    "Verif.Mix.VM.C110_data_partial",
    "Verif.Mix.VM.C110_data_refuted",
    "Verif.Mix.VM.C110_prior",
    "Verif.Mix.VM.C110_prior_partial",
    "Verif.Mix.VM.C110_posterior",
    "Verif.Mix.VM.C110_posterior_refuted",
    "Verif.Mix.VM.C110_fit",
    "Verif.Mix.VM.C110_labels"
   ],
   "note": "The exact values of the three terms are proved for every dimension, number of groups and data set (C110_data, C110_prior, C110_posterior), and their hypotheses after every fit that starts at random (C110_fit). The data term adds averages instead of sums over the groups (C110_data_refuted; right for univariate data when every group has total one, C110_data_partial); the prior term is right for univariate data (C110_prior_partial); the term of the fitted law is too large by half the Wishart entropy plus the dimension per group (C110_posterior_refuted)."
  },
  {
   "property": "C111",
   "status": "proved",
   "theorems": [
    "Verif.Mix.GM.C111_history",
    "Verif.Mix.GM.C111_fit",
    "Verif.Mix.GM.C111_raises",
    "Verif.Mix.GM.C111_eap_density",
    "Verif.Mix.GM.C111_map_density",
    "Verif.Mix.GM.C111_map_cluster",
    "Verif.Mix.GM.C111_affinity",
    "Verif.Mix.GM.C111_translation",
    "Verif.Mix.GM.C111_gauss",
    "Verif.Mix.GM.C111_affine"
   ],
   "note": "C111_history is an equation between whole objects for every weight class and every history of fits with data; the draws of atoms, k-means labels and densities of the surrounding are assumed to follow the map (Moved, PdfMoved). C111_gauss constructs such a surrounding for Gaussian densities and every invertible affine map, C111_affine composes both; C111_translation compares two runs of the same surrounding when the data are shifted. When densities change their size (determinant not one) the fits of a history must have the same number of rows, since the stored MAP likelihood survives between fits."
  },
  {
   "property": "C112",
   "status": "partial",
   "theorems": [
    "Verif.Mix.VM.C112_history_partial",
    "Verif.Mix.VM.C112_fit_partial",
    "Verif.Mix.VM.C112_raises_partial",
    "Verif.Mix.VM.C112_bound",
    "Verif.Mix.VM.C112_eap_density",
    "Verif.Mix.VM.C112_map_density",
    "Verif.Mix.VM.C112_cluster",
    "Verif.Mix.VM.C112_translation",
    "Verif.Mix.VM.C112_permutation",
    "Verif.Mix.VM.C112_line",
    "Verif.Mix.VM.C112_exact",
    "Verif.Mix.VM.C112_reflection_refuted",
    "Verif.Mix.VM.C112_refuted"
   ],
   "note": "False as stated: a reflection of one axis changes the responsibilities (C112_reflection_refuted, C112_refuted), because _update_var_theta adds the inner product of the deviation of the group mean to every entry of the scale matrix instead of the outer product. C112_exact: the update follows a rigid motion exactly when it keeps the vector of ones up to its sign. For those motions C112_history_partial, C112_fit_partial and C112_raises_partial prove the claim for whole objects and all mixed histories; C112_translation, C112_permutation and C112_line are the usual cases. The lower bound and the result methods follow every rigid motion (C112_bound, C112_eap_density, C112_map_density, C112_cluster)."
  },
  {
   "property": "C113",
   "status": "partial",
   "theorems": [
    "Verif.Mix.C113_matrix",
    "Verif.Mix.C113_shape",
    "Verif.Mix.C113_new",
    "Verif.Mix.C113_consensus",
    "Verif.Mix.C113_one_refuted",
    "Verif.Mix.C113_default_refuted"
   ],
   "note": "Proved for at least two query points (C113_matrix, C113_shape, C113_new, C113_consensus). A single point raises AxisError in every fitted object (C113_one_refuted). Passing the fitted data gives another matrix than passing nothing, against the documented default (C113_default_refuted)."
  },
  {
   "property": "C114",
   "status": "partial",
   "theorems": [
    "Verif.Mix.VM.C114_predictive",
    "Verif.Mix.VM.C114_factor",
    "Verif.Mix.VM.C114_value",
    "Verif.Mix.VM.C114_component",
    "Verif.Mix.VM.C114_component_raises",
    "Verif.Mix.VM.C114_mixture",
    "Verif.Mix.VM.C114_one_partial",
    "Verif.Mix.VM.C114_refuted",
    "Verif.Mix.VM.C114_total",
    "Verif.Mix.VM.C114_total_one_partial",
    "Verif.Mix.VM.C114_dim_refuted",
    "Verif.Mix.VM.C114_fit",
    "Verif.Mix.VM.C114_dirichletProcess_partial",
    "Verif.Mix.VM.C114_law_partial",
    "Verif.Mix.VM.C114_pitmanYor_partial",
    "Verif.Mix.VM.C114_pitmanYor_mass_partial",
    "Verif.Mix.VM.C114_dirichlet_partial",
    "Verif.Mix.VM.C114_equal_partial",
    "Verif.Mix.VM.C114_geometric_refuted",
    "Verif.Mix.VM.C114_geometric_mass_partial"
   ],
   "note": "The expected density of a group is proved to be the Student-t density in every dimension (C114_predictive); the code is off by sqrt(norm/det) of its precision (C114_value, C114_component, C114_total). Right for one coordinate, including after every fit with Dirichlet process, Pitman-Yor, Dirichlet and equal weights (C114_one_partial, C114_dirichletProcess_partial, C114_pitmanYor_partial, C114_dirichlet_partial, C114_equal_partial, C114_total_one_partial); with Pitman-Yor weights the mass is below one after every fit (C114_pitmanYor_mass_partial), with geometric weights below one but above the expected total of the weights (C114_geometric_mass_partial). Refuted from two coordinates on (C114_refuted), for dim (C114_dim_refuted), and for geometric weights already with one coordinate after every fit with two or more groups (C114_geometric_refuted)."
  },
  {
   "property": "C115",
   "status": "partial",
   "theorems": [
    "Verif.Mix.VM.C115_mode",
    "Verif.Mix.VM.C115_no_mode",
    "Verif.Mix.VM.C115_stick",
    "Verif.Mix.VM.C115_stick_both",
    "Verif.Mix.VM.C115_stick_uniform",
    "Verif.Mix.VM.C115_raises_refuted",
    "Verif.Mix.VM.C115_value",
    "Verif.Mix.VM.C115_one_partial",
    "Verif.Mix.VM.C115_total",
    "Verif.Mix.VM.C115_refuted",
    "Verif.Mix.VM.C115_fit",
    "Verif.Mix.VM.C115_dirichletProcess",
    "Verif.Mix.VM.C115_dirichlet_refuted"
   ],
   "note": "The pair used by the code is the only maximum of the joint density when there are more degrees of freedom than coordinates, which holds after every fit with nu at least the dimension; otherwise there is none (C115_mode, C115_no_mode, C115_fit). The modes of the sticks are those of the Beta densities (C115_stick, C115_stick_both, C115_stick_uniform). Values and total mass up to sqrt(norm/det) in every dimension (C115_value, C115_total, C115_dirichletProcess); exact for one coordinate (C115_one_partial). Refuted: values from two coordinates on (C115_refuted), ValueError for a density with one mode (C115_raises_refuted), weights of DirichletDistribution sum to less than one (C115_dirichlet_refuted)."
  },
  {
   "property": "C116",
   "status": "proved",
   "theorems": [
    "Verif.Mix.VM.C116_fit",
    "Verif.Mix.VM.C116_results",
    "Verif.Mix.VM.C116_history",
    "Verif.Mix.VM.C116_classes"
   ],
   "note": "Exact arithmetic: floating-point sums depend on the order. All weight classes (C116_classes); new objects with any order of the rows (C116_fit), result methods (C116_results), histories of fits including warm starts (C116_history). The k-means start is covered under the hypothesis that k-means itself labels the observations independently of their order."
  },
  {
   "property": "C117",
   "status": "proved",
   "theorems": [
    "Verif.Mix.VM.C117_history",
    "Verif.Mix.VM.C117_raises",
    "Verif.Mix.VM.C117_units",
    "Verif.Mix.VM.C117_cluster"
   ],
   "note": "For all similarities that keep the ones up to a factor, over any ordered field with a square root and logarithm of multiples (scales_real: the real functions). The draws of starting parameters and k-means are assumed to follow the units (Resized). Warm starts need an object whose groups all have parameters or none has (Lined), which every history of fits keeps."
  },
  {
   "property": "C118",
   "status": "partial",
   "theorems": [
    "Verif.Mix.VM.C118_bound",
    "Verif.Mix.VM.C118_bound_refuted",
    "Verif.Mix.VM.C118_eap_density_partial",
    "Verif.Mix.VM.C118_map_density_partial",
    "Verif.Mix.VM.C118_density_refuted",
    "Verif.Mix.VM.C118_line_partial"
   ],
   "note": "The claim holds for one coordinate (C118_line_partial) and fails otherwise: both densities are divided by c whatever the number of coordinates (C118_eap_density_partial, C118_map_density_partial, for all similarities; C118_density_refuted), because a Frobenius norm stands for a determinant. The bound changes by k (m - 1) log c / 2 instead (C118_bound, C118_bound_refuted)."
  },
  {
   "property": "C119",
   "status": "partial",
   "theorems": [
    "Verif.Mix.C119_dirichletProcess",
    "Verif.Mix.C119_pitmanYor",
    "Verif.Mix.C119_betaInBeta",
    "Verif.Mix.C119_betaBinomial",
    "Verif.Mix.C119_geometric",
    "Verif.Mix.C119_dirichletDistribution",
    "Verif.Mix.C119_equal",
    "Verif.Mix.C119_frequency_partial",
    "Verif.Mix.C119_frequency_refuted",
    "Verif.Mix.C119_betaInDirichlet_refuted",
    "Verif.Mix.C119_betaBernoulli_refuted",
    "Verif.Mix.C119_single_row_refuted"
   ],
   "note": "Proved for DirichletProcess, PitmanYorProcess, BetaInBeta, BetaBinomial (return, or the loop of tail does not end), GeometricProcess (always returns when beta draws are positive; the variational start needs init_groups), DirichletDistribution and EqualWeighting (always return). FrequencyWeighting: only when the first fit is the only cold one (C119_frequency_partial); a second cold fit raises IndexError because the weights of the first fit survive (C119_frequency_refuted). False for BetaInDirichlet (all observations in one group) and BetaBernoulli, and for one row with any class (C119_single_row_refuted, for all arguments). The slice uniforms are assumed in (0,1], k-means and argsort to do what they promise; the variational start is abstract here."
  },
  {
   "property": "C120",
   "status": "proved",
   "theorems": [
    "Verif.Mix.C120_eap",
    "Verif.Mix.C120_periods",
    "Verif.Mix.C120_dim",
    "Verif.Mix.C120_list",
    "Verif.Mix.C120_map",
    "Verif.Mix.C120_one_dirichletDistribution",
    "Verif.Mix.C120_one_equal",
    "Verif.Mix.C120_one_frequency",
    "Verif.Mix.C120_one_refuted",
    "Verif.Mix.C120_dim_data_refuted"
   ],
   "note": "Proved for all ten classes. The integral is one for DirichletDistribution, EqualWeighting and FrequencyWeighting; for the Dirichlet process it is strictly below one unless a beta draw is exactly one (C120_one_refuted): the truncated weights are not renormalised. The list version is per stored state (C120_list). dim=i evaluates at the first column of the query: with y=None that is the wrong column of the training data (C120_dim_data_refuted). The MAP statement assumes the stored state has its atoms (see C45). scipy densities are assumed to be the normal densities and drawn covariances positive definite."
  },
  {
   "property": "C121",
   "status": "partial",
   "theorems": [
    "Verif.Mix.VM.C121_history",
    "Verif.Mix.VM.C121_second_refuted",
    "Verif.Mix.VM.C121_proper",
    "Verif.Mix.VM.C121_few_refuted"
   ],
   "note": "Given parts are kept and missing parts are those of the first data set the object saw, after every history, whether the fits return or raise. False for a second fit to data with another mean (the doc string says the mean of the observations to fit). The default prior is proper exactly when no hyperplane contains all observations, so never with at most as many observations as columns. At least two observations (with one, np.cov is nan)."
  },
  {
   "property": "C122",
   "status": "partial",
   "theorems": [
    "Verif.Memory.C122_values",
    "Verif.Memory.C122_results_kept",
    "Verif.Memory.C122_arguments",
    "Verif.Memory.C122_private_writes",
    "Verif.Memory.C122_weights_refuted",
    "Verif.Memory.C122_matrix_refuted",
    "Verif.Memory.C122_frame_refuted",
    "Verif.Memory.C122_psi_refuted",
    "Verif.Memory.C122_mu",
    "Verif.Memory.C122_list_live",
    "Verif.Memory.C122_list_cold",
    "Verif.Memory.C122_list_refuted"
   ],
   "note": "Results, saved states, the best state and arrays of the caller are never written into by any later call; the value reading used by the rest of the development is exact for every attribute; arrays that are copied or made anew may be overwritten by the caller. False for the array returned by get_weights, random, complete and tail, the matrix given to fit_variational of a weighting structure, psi_prior and data frames, which are shared with the object, and for the lists of get_sim_params, get_n_groups and get_n_theta, which grow with later warm fits. The theorems on mu_prior, psi_prior and frames leave out fits that start from a variational fit."
  },
  {
   "property": "C123",
   "status": "partial",
   "theorems": [
    "Verif.Mix.VM.C123_elbo",
    "Verif.Mix.VM.C123_step",
    "Verif.Mix.VM.C123_loop",
    "Verif.Mix.VM.C123_fit",
    "Verif.Mix.VM.C123_flag",
    "Verif.Mix.VM.C123_classes",
    "Verif.Mix.VM.C123_groups_refuted",
    "Verif.Mix.VM.C123_equal_refuted"
   ],
   "note": "Proved for all six classes for a random start (with draws of invertible matrices), a k-means start that uses all groups, and a warm start. False for a Dirichlet distribution whose number of weights differs from n_groups (AssertionError), and for equal observations with the default prior and a k-means start (LinAlgError); k-means with an empty group gives nan (C52). Exact arithmetic."
  },
  {
   "property": "C124",
   "status": "partial",
   "theorems": [
    "Verif.Mix.VM.C124_labels",
    "Verif.Mix.VM.C124_ascent",
    "Verif.Mix.VM.C124_dirichletProcess_partial",
    "Verif.Mix.VM.C124_pitmanYor_partial",
    "Verif.Mix.VM.C124_groups_refuted",
    "Verif.Mix.VM.C124_bound_refuted"
   ],
   "note": "Proved for the updates of responsibilities and weights of Dirichlet and Pitman-Yor process mixtures (from any state whose weights come from a fit, with the explicit cost of eps). False for the update of a group (a strictly better law exists for univariate data unless the observations agree or the responsibilities sum to one) and for the bound the code computes (it falls between the first two iterations of fits with equal weights). The geometric process and the Dirichlet distribution do not fit the best law (C88, C90). Exact arithmetic."
  },
  {
   "property": "C125",
   "status": "partial",
   "theorems": [
    "Verif.Mix.C125_continue_partial",
    "Verif.Mix.C125_chain",
    "Verif.Mix.C125_burnIn_refuted",
    "Verif.Mix.C125_subsample_refuted"
   ],
   "note": "Proved for objects without burn-in whose subsampling step divides total_iter (C125_continue_partial, with equality of outcomes when a fit raises), and for the chain itself (current state, MAP state, stream positions) with every burn-in and subsampling step (C125_chain, for fits that return). False for the saved states otherwise: each warm start drops another burn-in (C125_burnIn_refuted, every burn-in >= 1) and restarts the subsampling (C125_subsample_refuted)."
  },
  {
   "property": "C126",
   "status": "partial",
   "theorems": [
    "Verif.Mix.VM.C126_sequence",
    "Verif.Mix.VM.C126_unconverged",
    "Verif.Mix.VM.C126_long_partial",
    "Verif.Mix.VM.C126_further",
    "Verif.Mix.VM.C126_seam_refuted",
    "Verif.Mix.VM.C126_converged_refuted"
   ],
   "note": "Proved: the warm fit makes further iterations of the sequence that the first fit began (C126_sequence); equality with the long fit when no fit reports convergence, whatever the tolerances (C126_unconverged), and for equal tolerances unless the long fit reports convergence after T1 or T1 + 1 iterations or a bound is -inf (C126_long_partial). False at the seam, because the warm fit does not know the bound reached before (C126_seam_refuted), and a converged fit is changed by a warm fit (C126_further, C126_converged_refuted)."
  },
  {
   "property": "C127",
   "status": "partial",
   "theorems": [
    "Verif.Mix.GM.C127_kmeans_partial",
    "Verif.Mix.GM.C127_default",
    "Verif.Mix.GM.C127_n",
    "Verif.Mix.GM.C127_random_partial",
    "Verif.Mix.GM.C127_n_refuted",
    "Verif.Mix.GM.C127_random_refuted",
    "Verif.Mix.GM.C127_only_kmeans_refuted"
   ],
   "note": "Proved for k-means in the classes without an attribute n (C127_kmeans_partial) and for random labels when complete(g) leaves at most g weights, as for a new stick-breaking object (C127_random_partial). False for the classes with n, where k-means ignores init_groups (C127_n, C127_n_refuted), and for random labels of an object fitted before (C127_random_refuted). The other sentences of the documentation are false: without init_groups k-means gets two groups (C127_default), and random labels depend on init_groups (C127_only_kmeans_refuted)."
  },
  {
   "property": "C128",
   "status": "proved",
   "theorems": [
    "Verif.Load.C128_chaetocnema",
    "Verif.Load.C128_penguins",
    "Verif.Load.C128_complete",
    "Verif.Load.C128_columns"
   ],
   "note": "Both loaders as functions of the file; cells are abstract (parsing by pandas is not modelled)."
  },
  {
   "property": "C129",
   "status": "partial",
   "theorems": [
    "Verif.Mix.VM.C129_gibbs_partial",
    "Verif.Mix.VM.C129_var_partial",
    "Verif.Mix.VM.C129_classes",
    "Verif.Mix.VM.C129_geometric",
    "Verif.Mix.VM.C129_default",
    "Verif.Mix.VM.C129_default_refuted",
    "Verif.Mix.VM.C129_start_refuted"
   ],
   "note": "Both directions, for every class with a variational fit. Refuted for queries without points and for init_method=variational."
  },
  {
   "property": "C130",
   "status": "proved",
   "theorems": [
    "Verif.Mix.VM.C130_dirichletProcess_partial",
    "Verif.Mix.VM.C130_pitmanYor_partial",
    "Verif.Mix.VM.C130_geometric",
    "Verif.Mix.VM.C130_random_refuted",
    "Verif.Mix.C130_dirichletProcess",
    "Verif.Mix.C130_pitmanYor"
   ],
   "note": "The whole sequence of calls for three classes, for the Dirichlet and Pitman-Yor process with probability one (C130_dirichletProcess, C130_pitmanYor in Props/C131.lean); the _partial theorems are the pathwise versions, which leave open that the loop of tail does not end. Refuted for init_method=random."
  },
  {
   "property": "C131",
   "status": "partial",
   "theorems": [
    "Verif.Mix.C131_dirichletProcess",
    "Verif.Mix.C131_pitmanYor",
    "Verif.Mix.C131_betaBinomial",
    "Verif.Mix.C131_betaInBeta_partial"
   ],
   "note": "Almost sure termination of whole sessions for four classes; the optimiser methods of BetaInBeta with 0<x<1, BetaInDirichlet and BetaBernoulli are missing (for the last two the calls may raise, C119)."
  },
  {
   "property": "C132",
   "status": "proved",
   "theorems": [
    "Verif.Mix.C132_scalar",
    "Verif.Mix.C132_scalar_ends",
    "Verif.Mix.C132_sized_refuted"
   ],
   "note": "The full law and almost sure termination without size. With size the claim is false: exact probabilities 7/19 and 12/19 for a step function (C132_sized_refuted)."
  },
  {
   "property": "C133",
   "status": "proved",
   "theorems": [
    "Verif.Mix.C133_prob",
    "Verif.Mix.C133_posterior",
    "Verif.Mix.C133_dirichletProcess",
    "Verif.Mix.C133_pitmanYor",
    "Verif.Mix.C133_dirichletDistribution",
    "Verif.Mix.C133_equal",
    "Verif.Mix.C133_affinity_dirichletProcess",
    "Verif.Mix.C133_affinity_pitmanYor",
    "Verif.Mix.C133_affinity_dirichletDistribution",
    "Verif.Mix.C133_affinity_equal",
    "Verif.Mix.C133_default",
    "Verif.Mix.C133_flat_refuted"
   ],
   "note": "All dimensions: total of the density (C133_prob), Bayes (C133_posterior), limits of fits of four classes. The default priors are admissible for a positive definite sample covariance (C133_default) and not for rows in a hyperplane (C133_flat_refuted); what scipy does with a singular scale matrix is not modelled. Shift eps = 0 as in C94-C98."
  },
  {
   "property": "C134",
   "status": "proved",
   "theorems": [
    "Verif.Mix.C134_prior_pitmanYor",
    "Verif.Mix.C134_code",
    "Verif.Mix.C134_prior_dirichletProcess",
    "Verif.Mix.C134_standard_refuted",
    "Verif.Mix.C134_posterior_dirichletProcess",
    "Verif.Mix.C134_posterior_pitmanYor",
    "Verif.Mix.C134_average_dirichletProcess",
    "Verif.Mix.C134_average_pitmanYor",
    "Verif.Mix.C134_affinity_dirichletProcess",
    "Verif.Mix.C134_affinity_pitmanYor",
    "Verif.Mix.C134_groups_dirichletProcess",
    "Verif.Mix.C134_groups_pitmanYor"
   ],
   "note": "The statement includes the negative fact on the concentration (C134_standard_refuted). Averages are those of the saved labels; numbers are exact."
  },
  {
   "property": "C135",
   "status": "proved",
   "theorems": [
    "Verif.Mix.C135_prior_dirichletDistribution",
    "Verif.Mix.C135_prior_equal",
    "Verif.Mix.C135_posterior_dirichletDistribution",
    "Verif.Mix.C135_posterior_equal",
    "Verif.Mix.C135_average_dirichletDistribution",
    "Verif.Mix.C135_average_equal",
    "Verif.Mix.C135_switching_dirichletDistribution",
    "Verif.Mix.C135_switching_equal"
   ],
   "note": "Averages are those of the saved labels; numbers are exact."
  },
  {
   "property": "C136",
   "status": "proved",
   "theorems": [
    "Verif.Mix.C136_sticks",
    "Verif.Mix.FinMix.C136_finite",
    "Verif.Mix.C136_dirichletProcess",
    "Verif.Mix.C136_pitmanYor",
    "Verif.Mix.C136_dirichletDistribution",
    "Verif.Mix.C136_equal",
    "Verif.Mix.C136_affinity_dirichletProcess",
    "Verif.Mix.C136_prior"
   ],
   "note": "The labels of the start are taken to follow the order of the rows (k-means is a parameter of the model)."
  },
  {
   "property": "C137",
   "status": "proved",
   "theorems": [
    "Verif.Mix.FinMix.C137_density",
    "Verif.Mix.C137_joint",
    "Verif.Mix.C137_predictive",
    "Verif.Mix.C137_integral",
    "Verif.Mix.C137_predictive_pos",
    "Verif.Mix.C137_dirichletDistribution",
    "Verif.Mix.C137_equal"
   ],
   "note": "Convergence in probability for both classes and any number of columns, the limit in closed form, and its total integral. Exact arithmetic, eps = 0, and Gumbel noise as in C105."
  },
  {
   "property": "C138",
   "status": "proved",
   "theorems": [
    "Verif.Mix.FinMix.C138_affinity",
    "Verif.Mix.C138_dirichletDistribution",
    "Verif.Mix.C138_equal",
    "Verif.Mix.C138_refuted_dirichletDistribution",
    "Verif.Mix.C138_refuted_equal"
   ],
   "note": "Convergence in probability for both classes and any number of columns, and the difference from the call without argument for data with two equal rows. Exact arithmetic, eps = 0, and Gumbel noise as in C105."
  },
  {
   "property": "C139",
   "status": "proved",
   "theorems": [
    "Verif.Mix.C139_total",
    "Verif.Mix.C139_conjugate_refuted",
    "Verif.Mix.C139_refuted",
    "Verif.Mix.C139_not_invariant"
   ],
   "note": "The strict growth for whole iterations, for all data and parameters. Exact arithmetic, eps = 0, Gumbel noise, and a generator with the documented laws."
  },
  {
   "property": "C140",
   "status": "proved",
   "theorems": [
    "Verif.Mix.C140_predictive",
    "Verif.Mix.C140_below",
    "Verif.Mix.C140_mean",
    "Verif.Mix.C140_limit",
    "Verif.Mix.C140_eap",
    "Verif.Mix.C140_predictive_dirichletProcess",
    "Verif.Mix.C140_predictive_pitmanYor",
    "Verif.Mix.C140_integral",
    "Verif.Mix.C140_eap_dirichletProcess",
    "Verif.Mix.C140_eap_pitmanYor",
    "Verif.Mix.C140_limit_dirichletProcess",
    "Verif.Mix.C140_limit_pitmanYor"
   ],
   "note": "Closed form of the predictive density, the mean of gibbs_eap_density under the posterior law, the strict inequality and the limits from cold starts. The convergence in (3) is for densities cut off at a finite level, because the normal density is unbounded in the covariance. Exact arithmetic, eps = 0, Gumbel noise, and a generator with the documented laws."
  },
  {
   "property": "C141",
   "status": "proved",
   "theorems": [
    "Verif.Mix.C141_half",
    "Verif.Mix.C141_groups",
    "Verif.Mix.C141_mass",
    "Verif.Mix.C141_below"
   ],
   "note": "For the six stick-breaking classes with the inherited tail. The finite classes store a total of one (C120); for GeometricProcess tail may stop early (C25). Part (2) and (3) are for eps = 0 and finite log-densities. Exact arithmetic."
  },
  {
   "property": "C142",
   "status": "proved",
   "theorems": [
    "Verif.Mix.C142_entries",
    "Verif.Mix.C142_grows",
    "Verif.Mix.C142_order",
    "Verif.Mix.C142_use_refuted"
   ],
   "note": "Invariant over all calls (Ledger), including fits that raise half way. Part (4) is a run over the rationals."
  },
  {
   "property": "C143",
   "status": "proved",
   "theorems": [
    "Verif.Mix.C143_value",
    "Verif.Mix.C143_raises",
    "Verif.Mix.C143_returns",
    "Verif.Mix.C143_gap",
    "Verif.Mix.C143_add",
    "Verif.Mix.C143_dirichlet",
    "Verif.Mix.C143_equal",
    "Verif.Mix.C143_iff",
    "Verif.Mix.C143_refuted"
   ],
   "note": "All histories and classes; part (5) is a run over the rationals with saved states of 2, 2 and 1 weights."
  },
  {
   "property": "C144",
   "status": "proved",
   "theorems": [
    "Verif.Ctor.C144_returns",
    "Verif.Ctor.C144_fields",
    "Verif.Ctor.C144_unknown",
    "Verif.Ctor.C144_order",
    "Verif.Ctor.C144_progress_refuted"
   ],
   "note": "All keyword lists; part (5) says what the two constructors without **kwargs do. Numbers are rational; comparisons of arrays and strings of digits are simplified (Model/MixCtor.lean)."
  },
  {
   "property": "C145",
   "status": "proved",
   "theorems": [
    "Verif.C145_dp_weight",
    "Verif.C145_dp_last",
    "Verif.C145_py_weight",
    "Verif.C145_geo_weight",
    "Verif.C145_dirichlet_weight",
    "Verif.C145_equal_weight",
    "Verif.Mix.C145_frequency",
    "Verif.Mix.VM.C145_nonneg",
    "Verif.Mix.VM.C145_classes",
    "Verif.Mix.VM.C145_low",
    "Verif.Mix.VM.C145_density",
    "Verif.Mix.VM.C145_dirichletProcess_refuted",
    "Verif.Mix.VM.C145_pitmanYor_refuted",
    "Verif.Mix.VM.C145_geometric_refuted",
    "Verif.Mix.VM.C145_dirichlet",
    "Verif.Mix.VM.C145_equal",
    "Verif.Mix.C145_gibbs_nonneg",
    "Verif.Mix.C145_gibbs",
    "Verif.Mix.C145_gibbs_map"
   ],
   "note": "Parts (3) and (4) after a fit with random start and at least one iteration, over the reals; the statements about the weights alone hold over every ordered field. Part (4) says what the code does wrong. FrequencyWeighting: for the weights. For var_map_density see C146."
  },
  {
   "property": "C146",
   "status": "proved",
   "theorems": [
    "Verif.C146_dp_weight",
    "Verif.C146_py_weight",
    "Verif.C146_py_le",
    "Verif.C146_geo_weight",
    "Verif.C146_geo_above_one",
    "Verif.C146_geo_zero",
    "Verif.C146_dirichlet_weight",
    "Verif.Mix.C146_frequency",
    "Verif.Mix.VM.C146_nonneg",
    "Verif.Mix.VM.C146_classes",
    "Verif.Mix.VM.C146_low",
    "Verif.Mix.VM.C146_density",
    "Verif.Mix.VM.C146_two",
    "Verif.Mix.VM.C146_dirichletProcess_refuted",
    "Verif.Mix.VM.C146_pitmanYor_refuted",
    "Verif.Mix.VM.C146_geometric_refuted",
    "Verif.Mix.VM.C146_dirichlet",
    "Verif.Mix.VM.C146_equal"
   ],
   "note": "The statement says what the code does wrong for the three processes. DirichletProcess, DirichletDistribution and EqualWeighting after every fit with random start and at least one iteration, over the reals; PitmanYorProcess and GeometricProcess likewise under the stated conditions on the fitted parameters, and their weights over every ordered field; FrequencyWeighting for the weights."
  }
 ]
}