import Verif.Model.VarFit

/-!
# Conversion of observations and of the `rng` argument

`/repo/pyrichlet/mixture_models/_base.py:703-743` (`_initialize_common_params`), `1099-1119` (`_cast_observations`),
`/repo/pyrichlet/utils/validators.py:4-11` (`rng_parser`) and the constructors of `/repo/pyrichlet/mixture_models/_*_mixture.py`, which pass `rng` to the weight model and to
`BaseGaussianMixture.__init__` (`_base.py:55-62`).

Arrays hold numbers and have any number of axes; arrays of objects, masked arrays and sparse matrices are not modelled.  A nested list whose parts have
different shapes raises `ValueError` (numpy 1.24 and later).
-/

namespace Verif.Mix
variable {K : Type}

/-- A numpy array: shape and entries in row-major order. -/
structure Nd (K : Type) where
  shape : List ℕ
  data : List K
  deriving DecidableEq

namespace Nd
/-- `a.ndim`. -/
def ndim (a : Nd K) : ℕ := a.shape.length

/-- `a.reshape(-1, 1)`. -/
def column (a : Nd K) : Nd K := ⟨[a.data.length, 1], a.data⟩

/-- `a[i]` for `i` in the range of a matrix: its rows. -/
def rows (a : Nd K) : List (List K) := match a.shape with
  | [n, m] => (List.range n).map (fun i => (a.data.drop (i * m)).take m)
  | _ => []
end Nd

/-- A Python list of numbers and lists. -/
inductive PyVal (K : Type) where
  | num (x : K)
  | list (l : List (PyVal K))

mutual
/-- `np.array(v)`. -/
def PyVal.toNd : PyVal K → Except PyErr (Nd K)
  | .num x => .ok ⟨[], [x]⟩
  | .list l => match PyVal.toNds l with
    | .error e => .error e
    | .ok as => match as with
      | [] => .ok ⟨[0], []⟩
      | a :: _ => if as.all (fun b => b.shape == a.shape) then .ok ⟨as.length :: a.shape, (as.map Nd.data).flatten⟩ else .error .valueError

/-- The parts of a list. -/
def PyVal.toNds : List (PyVal K) → Except PyErr (List (Nd K))
  | [] => .ok []
  | v :: vs => match v.toNd with
    | .error e => .error e
    | .ok a => match PyVal.toNds vs with
      | .error e => .error e
      | .ok as => .ok (a :: as)
end

/-- What a user may pass as observations. `frame` is a `DataFrame` with named columns, `number` a Python `int` or `float` (numpy floats are floats),
`other` everything else: tuples, strings, dicts, numpy integers. -/
inductive Obs (K : Type) where
  | none
  | frame (columns : List String) (rows : List (List K))
  | series (name : Option String) (l : List K)
  | list (l : List (PyVal K))
  | array (a : Nd K)
  | number (x : K)
  | other

/-- `_column_names`. -/
inductive Names where
  | numbers (k : ℕ)
  | strings (l : List String)
  deriving DecidableEq

/-- `DataFrame.to_numpy()`. -/
def frameNd (columns : List String) (rows : List (List K)) : Nd K := ⟨[rows.length, columns.length], rows.flatten⟩

/-- The `else` branches of `_base.py:719-723, 726-730`: a column for one axis, else the array with `shape[1]` names; `shape[1]` of an array without axes
raises `IndexError`. -/
def fitArray (a : Nd K) : Except PyErr (Nd K × Names) :=
  if a.ndim = 1 then .ok (a.column, .numbers 1)
  else match a.shape[1]? with
    | some c => .ok (a, .numbers c)
    | none => .error .indexError

/-- The conversion of the data of a fit, `_base.py:707-732`. -/
def castFit : Obs K → Except PyErr (Nd K × Names)
  | .frame cols rows => .ok (frameNd cols rows, .strings cols)
  | .series name l => .ok (⟨[l.length], l⟩, match name with
      | none => .numbers 1
      | some s => .strings [s])
  | .list l => match PyVal.toNd (.list l) with
    | .error e => .error e
    | .ok a => fitArray a
  | .array a => fitArray a
  | .none => .error .typeError
  | .number _ => .error .typeError
  | .other => .error .typeError

/-- `_initialize_common_params`, `_base.py:704-743`, as far as it can fail: `np.cov` refuses more than two axes, and without `nu_prior` the second axis
is read. -/
def commonParams (psiGiven nuGiven : Bool) (o : Obs K) : Except PyErr (Nd K × Names) := match castFit o with
  | .error e => .error e
  | .ok (a, names) =>
    if psiGiven = false ∧ 2 < a.ndim then .error .valueError
    else if nuGiven = false ∧ a.ndim < 2 then .error .indexError
    else .ok (a, names)

/-- `_cast_observations`, `_base.py:1099-1119`; `own` is `self.y`. -/
def castQuery (own : Nd K) : Obs K → Except PyErr (Nd K)
  | .none => .ok own
  | .frame cols rows => .ok (frameNd cols rows)
  | .list l => match PyVal.toNd (.list l) with
    | .error e => .error e
    | .ok a => .ok (if a.ndim = 1 then a.column else a)
  | .array a => .ok (if a.ndim = 1 then a.column else a)
  | .number x => .ok ⟨[1, 1], [x]⟩
  | .series _ _ => .error .typeError
  | .other => .error .typeError

/-! ### Random number generators -/

/-- The argument `rng`; `subclass` is an instance of a proper subclass of `int` or `Generator` (`bool`, for instance), `other` anything else (numpy
integers, `RandomState`, strings). -/
inductive RngArg where
  | none
  | int (n : ℤ)
  | generator (id : ℕ)
  | subclass
  | other

/-- A generator: the stream it reads and its position. -/
structure Gen (K : Type) where
  stream : ℕ → K
  pos : ℕ

/-- All generators that exist, the streams of `default_rng(n)` for all `n`, and those of the calls of `default_rng()` still to come. -/
structure Gens (K : Type) where
  all : List (Gen K)
  seeded : ℕ → ℕ → K
  entropy : ℕ → ℕ → K

namespace Gens
/-- A new generator. -/
def alloc (h : Gens K) (s : ℕ → K) : ℕ × Gens K := (h.all.length, { h with all := h.all ++ [⟨s, 0⟩] })

/-- `rng_parser`, `validators.py:4-11`; `default_rng` refuses negative numbers. -/
def parse (h : Gens K) : RngArg → Except PyErr (ℕ × Gens K)
  | .none => .ok (h.alloc (h.entropy h.all.length))
  | .int n => if n < 0 then .error .valueError else .ok (h.alloc (h.seeded n.toNat))
  | .generator id => .ok (id, h)
  | .subclass => .error .typeError
  | .other => .error .typeError

/-- The `k` next values of generator `id`, which move its position. -/
def draw (h : Gens K) (id k : ℕ) : List K × Gens K := match h.all[id]? with
  | none => ([], h)
  | some g => ((List.range k).map (fun i => g.stream (g.pos + i)), { h with all := h.all.set id { g with pos := g.pos + k } })

/-- A mixture: `weight_model = ..(rng=rng)`, then `BaseGaussianMixture.__init__(.., rng=rng)`; the two generators it uses (`_dirichlet_process_mixture.py:6-8`
and the like, `_base.py:62`, `weight_models/_base.py:15-16`). -/
def mixture (h : Gens K) (a : RngArg) : Except PyErr ((ℕ × ℕ) × Gens K) := match h.parse a with
  | .error e => .error e
  | .ok (w, h) => match h.parse a with
    | .error e => .error e
    | .ok (x, h) => .ok ((w, x), h)
end Gens
end Verif.Mix
