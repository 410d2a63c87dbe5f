import Verif.Model.Gibbs

/-!
# The constructors of the ten mixtures, `/repo/pyrichlet/mixture_models/_*_mixture.py`, with their keyword arguments

A call is the list of its keyword arguments.  A keyword in the signature is bound to the parameter; any other keyword goes to `**kwargs` where the signature has it, and
is a `TypeError` where it has not.  `BaseGaussianMixture.__init__` (`_base.py:56-99`) has no `**kwargs`.

Simplified: numbers are rational (no nan); a comparison or a negation of something that is not a number is a `TypeError` (arrays compare entry by entry in Python);
`int(s)` of a string is a `ValueError` (a string of digits is accepted by Python).  Positional arguments are impossible: all signatures begin with `*`.
-/

namespace Verif.Ctor

/-- The names of keyword arguments; `other` is any name no signature has. -/
inductive Kw where
  | n | alpha | pyd | a | b | p | x | pMethod | rng | weightModel | muPrior | lambdaPrior | psiPrior | nuPrior | totalIter | burnIn | subsampleSteps | showProgress
  | other (name : String)
  deriving DecidableEq, Repr

/-- Values of arguments; `gen` is a `np.random.Generator`, `object` anything else. -/
inductive Val where
  | none
  | bool (b : Bool)
  | int (z : ℤ)
  | float (q : ℚ)
  | str (s : String)
  | array (l : List ℚ)
  | gen (id : ℕ)
  | object (id : ℕ)
  deriving DecidableEq

/-- The number in a value, if it is one (`True` is 1). -/
def Val.num : Val → Option ℚ
  | .bool b => some (if b then 1 else 0)
  | .int z => some z
  | .float q => some q
  | _ => Option.none

/-- The ten classes, `mixture_models/__init__.py`. -/
inductive Cls where
  | dirichletProcess | pitmanYor | geometric | betaInBeta | betaInDirichlet | betaBernoulli | betaBinomial | dirichletDistribution | equal | frequency
  deriving DecidableEq, Repr

abbrev Args := List (Kw × Val)

/-- The parameters of a signature with their defaults, without `**kwargs`: `_dirichlet_process_mixture.py:6`, `_pitman_yor_process_mixture.py:6`,
`_geometric_process_mixture.py:6`, `_beta_in_beta_mixture.py:6-9`, `_beta_in_dirichlet_mixture.py:6`, `_beta_bernoulli_mixture.py:6`, `_beta_binomial_mixture.py:6-8`,
`_dirichlet_distribution_mixture.py:6`, `_equal_weighted_mixture.py:6`, `_frequency_weighted_mixture.py:6`. -/
def sig : Cls → Args
  | .dirichletProcess => [(.alpha, .int 1), (.rng, .none)]
  | .pitmanYor => [(.alpha, .int 1), (.pyd, .int 0), (.rng, .none)]
  | .geometric => [(.a, .int 1), (.b, .int 1), (.rng, .none)]
  | .betaInBeta => [(.x, .int 0), (.alpha, .int 1), (.a, .int 1), (.b, .int 1), (.muPrior, .none), (.lambdaPrior, .int 1), (.psiPrior, .none), (.nuPrior, .none),
      (.pMethod, .str "geometric"), (.totalIter, .int 1000), (.burnIn, .int 100), (.subsampleSteps, .int 1), (.rng, .none)]
  | .betaInDirichlet => [(.alpha, .int 1), (.a, .int 0), (.rng, .none)]
  | .betaBernoulli => [(.p, .int 1), (.alpha, .int 1), (.rng, .none)]
  | .betaBinomial => [(.n, .int 0), (.alpha, .int 1), (.muPrior, .none), (.lambdaPrior, .int 1), (.psiPrior, .none), (.nuPrior, .none), (.totalIter, .int 1000),
      (.burnIn, .int 100), (.subsampleSteps, .int 1), (.rng, .none)]
  | .dirichletDistribution => [(.n, .int 1), (.alpha, .int 1), (.rng, .none)]
  | .equal => [(.n, .int 1), (.rng, .none)]
  | .frequency => [(.n, .int 1), (.rng, .none)]

/-- Whether the signature ends in `**kwargs` (all but `_beta_in_beta_mixture.py:6-9` and `_beta_binomial_mixture.py:6-8`). -/
def hasKwargs : Cls → Bool
  | .betaInBeta => false
  | .betaBinomial => false
  | _ => true

/-- The parameters of `BaseGaussianMixture.__init__` that have a default, `_base.py:56-59`. -/
def baseSig : Args :=
  [(.muPrior, .none), (.lambdaPrior, .int 1), (.psiPrior, .none), (.nuPrior, .none), (.totalIter, .int 1000), (.burnIn, .int 100), (.subsampleSteps, .int 1),
    (.showProgress, .bool false), (.rng, .none)]

/-- The value of a parameter of a signature after binding. -/
def bound (s args : Args) (k : Kw) : Val := ((args.lookup k).orElse (fun _ => s.lookup k)).getD .none

/-- Does a list of arguments or parameters have the keyword? -/
def has (s : Args) (k : Kw) : Bool := (s.lookup k).isSome

/-- `rng_parser`, `utils/validators.py:4-11`; `default_rng` refuses negative numbers. -/
def parseRng : Val → Except PyErr Unit
  | .none => .ok ()
  | .int z => if z < 0 then .error .valueError else .ok ()
  | .gen _ => .ok ()
  | _ => .error .typeError

/-- `-pyd < alpha` is asserted, `_pitman_yor_process.py:12`. -/
def checkDiscount (pyd alpha : Val) : Except PyErr Unit :=
  match pyd.num, alpha.num with
  | some d, some al => if -d < al then .ok () else .error .assertionError
  | _, _ => .error .typeError

/-- The methods of `_beta_in_beta.py:142-144`. -/
def methods : List String := ["static", "independent", "geometric", "rejection-sampling", "max-likelihood", "inverse-sampling"]

/-- The constructor of the weight model with the parameters `g`: the parameters handed over (`rng` is dealt with first, `weight_models/_base.py:16`), then the checks of
`_pitman_yor_process.py:12`, `_beta_in_beta.py:141-146` and `_dirichlet_distribution.py:13`. -/
def weightModel (c : Cls) (g : Kw → Val) : Except PyErr Args :=
  match parseRng (g .rng) with
  | .error e => .error e
  | .ok _ => match c with
    | .dirichletProcess => .ok [(.alpha, g .alpha)]
    | .pitmanYor => (checkDiscount (g .pyd) (g .alpha)).map (fun _ => [(.pyd, g .pyd), (.alpha, g .alpha)])
    | .geometric => .ok [(.a, g .a), (.b, g .b)]
    | .betaInBeta =>
      if g .pMethod ∈ methods.map Val.str then .ok [(.x, g .x), (.alpha, g .alpha), (.a, g .a), (.b, g .b), (.pMethod, g .pMethod)] else .error .valueError
    | .betaInDirichlet => .ok [(.alpha, g .alpha), (.a, g .a)]
    | .betaBernoulli => .ok [(.p, g .p), (.alpha, g .alpha)]
    | .betaBinomial => .ok [(.n, g .n), (.alpha, g .alpha)]
    | .dirichletDistribution => match g .n with
      | .int z => .ok [(.n, .int z), (.alpha, g .alpha)]
      | _ => .error .assertionError
    | .equal => .ok [(.n, g .n)]
    | .frequency => .ok [(.n, g .n)]

/-- `int(v)`. -/
def toInt : Val → Except PyErr ℤ
  | .bool b => .ok (if b then 1 else 0)
  | .int z => .ok z
  | .float q => .ok (Mix.pyInt q)
  | .str _ => .error .valueError
  | _ => .error .typeError

/-- A new mixture: its class, the parameters of its weight model, the attribute `n` if it is set, and the attributes set by `BaseGaussianMixture.__init__` from its
arguments. -/
structure Obj where
  cls : Cls
  weight : Args
  n : Option Val
  mu : Val
  lam : Val
  psi : Val
  nu : Val
  total : ℤ
  burn : ℤ
  step : ℤ
  progress : Val
  deriving DecidableEq

/-- `BaseGaussianMixture.__init__`, `_base.py:56-99`, called with `weight_model=..` and the arguments `args`. -/
def baseInit (c : Cls) (weight : Args) (n : Option Val) (args : Args) : Except PyErr Obj :=
  if args.any (fun x => !has baseSig x.1) then .error .typeError
  else
    let g := bound baseSig args
    match (g .totalIter).num, (g .burnIn).num with
    | some t, some b =>
      if t > b then do
        parseRng (g .rng)
        let burn ← toInt (g .burnIn)
        let total ← toInt (g .totalIter)
        let step ← toInt (g .subsampleSteps)
        pure ⟨c, weight, n, g .muPrior, g .lambdaPrior, g .psiPrior, g .nuPrior, total, burn, step, g .showProgress⟩
      else .error .assertionError
    | _, _ => .error .typeError

/-- The attribute `n` of the three mixtures that set it, `_dirichlet_distribution_mixture.py:8`, `_equal_weighted_mixture.py:8`, `_frequency_weighted_mixture.py:8`. -/
def attrN (c : Cls) (g : Kw → Val) : Option Val :=
  match c with
  | .dirichletDistribution => some (g .n)
  | .equal => some (g .n)
  | .frequency => some (g .n)
  | _ => Option.none

/-- The constructors: binding, then the weight model, then the base class with `rng=rng` and the rest (`**kwargs`, or the seven parameters named in the call).  A keyword
`weight_model` in `**kwargs` is given twice. -/
def construct (c : Cls) (args : Args) : Except PyErr Obj :=
  let g := bound (sig c) args
  if hasKwargs c = false ∧ args.any (fun x => !has (sig c) x.1) then .error .typeError
  else match weightModel c g with
  | .error e => .error e
  | .ok w =>
    baseInit c w (attrN c g) ((.rng, g .rng) ::
      (if hasKwargs c then args.filter (fun x => !has (sig c) x.1)
      else [.muPrior, .lambdaPrior, .psiPrior, .nuPrior, .totalIter, .burnIn, .subsampleSteps].map (fun k => (k, g k))))
end Verif.Ctor
