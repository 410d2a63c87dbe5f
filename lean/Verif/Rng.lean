import Verif.Py

/-!
# Random generator and method monad

`Oracle` stands for everything `self._rng` (a `np.random.Generator`) may answer.  A draw at stream position `i`
with given parameters has the value `ω.beta i a b`, etc.; theorems quantify over all oracles satisfying
`Oracle.Legal`, i.e. over all outcomes that the distribution's support allows.  `M` is the type of a method of a
mutable Python object whose state survives exceptions.
-/

namespace Verif

variable {K : Type} {σ α β : Type}

/-- All future answers of a generator (and of the scipy optimisers used by `BetaInBeta.random_p`). -/
structure Oracle (K : Type) where
  /-- `rng.beta(a, b)` at stream position `i`. -/
  beta : ℕ → K → K → K
  /-- `rng.binomial(n, p)`. -/
  binom : ℕ → ℤ → K → ℤ
  /-- `rng.uniform()` in `[0,1)`. -/
  unif : ℕ → K
  /-- `rng.dirichlet(alpha)`. -/
  dirichlet : ℕ → List K → List K
  /-- `rng.choice(range(len(p)), p=p)`. -/
  choice : ℕ → List K → ℕ
  /-- `gumbel_max_sampling(logp)` for one column of log probabilities (`none` is minus infinity). -/
  gumbelMax : ℕ → List (Option K) → ℕ
  /-- Result of `scipy.optimize.minimize` / `brentq` for `p`, for an objective given by a list of sticks and a list of parameters; `none` if it
  reports failure. -/
  optim : ℕ → List K → List K → Option K

/-- The support of each distribution. -/
structure Oracle.Legal [Field K] [LinearOrder K] (ω : Oracle K) : Prop where
  beta_nonneg : ∀ i a b, 0 ≤ ω.beta i a b
  beta_le_one : ∀ i a b, ω.beta i a b ≤ 1
  binom_nonneg : ∀ i n p, 0 ≤ n → 0 ≤ ω.binom i n p
  binom_le : ∀ i n p, 0 ≤ n → ω.binom i n p ≤ n
  binom_zero : ∀ i n, 0 ≤ n → ω.binom i n 0 = 0
  binom_one : ∀ i n, 0 ≤ n → ω.binom i n 1 = n
  unif_nonneg : ∀ i, 0 ≤ ω.unif i
  unif_lt_one : ∀ i, ω.unif i < 1
  dirichlet_length : ∀ i l, (ω.dirichlet i l).length = l.length
  dirichlet_nonneg : ∀ i l, ∀ x ∈ ω.dirichlet i l, 0 ≤ x
  dirichlet_sum : ∀ i l, l ≠ [] → (ω.dirichlet i l).sum = 1
  choice_pos : ∀ i p, (∀ x ∈ p, 0 ≤ x) → 0 < p.sum → ∃ x, p[ω.choice i p]? = some x ∧ 0 < x
  gumbel_lt : ∀ i l, l ≠ [] → ω.gumbelMax i l < l.length
  gumbel_some : ∀ i l, (∃ x ∈ l, x ≠ none) → ∃ y, l[ω.gumbelMax i l]? = some (some y)
  optim_mem : ∀ i v ps p, ω.optim i v ps = some p → 0 ≤ p ∧ p ≤ 1

/-- A method of an object with state `σ`: given the generator, the object and the stream position it returns a
value or an exception *and* the new object and position. -/
def M (K σ α : Type) : Type := Oracle K → σ × ℕ → Except PyErr α × (σ × ℕ)

namespace M

/-- Return a value without effect. -/
def ret (a : α) : M K σ α := fun _ s => (.ok a, s)

/-- Sequencing: an exception skips the rest but keeps the effects so far. -/
def andThen (x : M K σ α) (f : α → M K σ β) : M K σ β := fun ω s =>
  match x ω s with
  | (.ok a, s') => f a ω s'
  | (.error e, s') => (.error e, s')

instance : Monad (M K σ) where
  pure := ret
  bind := andThen

/-- `raise e`. -/
def raise (e : PyErr) : M K σ α := fun _ s => (.error e, s)

/-- Read the object. -/
def self : M K σ σ := fun _ s => (.ok s.1, s)

/-- Assign attributes of the object. -/
def assign (f : σ → σ) : M K σ Unit := fun _ s => (.ok (), (f s.1, s.2))

/-- A computation that touches neither object nor generator. -/
def lift (e : Except PyErr α) : M K σ α := fun _ s => (e, s)

/-- `if c: m` (no `else`). -/
def whenM (c : Prop) [Decidable c] (m : M K σ Unit) : M K σ Unit := if c then m else pure ()

@[simp] theorem pure_apply (a : α) (ω : Oracle K) (s : σ × ℕ) :
    (pure a : M K σ α) ω s = (.ok a, s) := rfl

@[simp] theorem bind_apply (x : M K σ α) (f : α → M K σ β) (ω : Oracle K) (s : σ × ℕ) :
    (x >>= f) ω s = match x ω s with
      | (.ok a, s') => f a ω s'
      | (.error e, s') => (.error e, s') := rfl

@[simp] theorem raise_apply (e : PyErr) (ω : Oracle K) (s : σ × ℕ) :
    (raise e : M K σ α) ω s = (.error e, s) := rfl

@[simp] theorem self_apply (ω : Oracle K) (s : σ × ℕ) :
    (self : M K σ σ) ω s = (.ok s.1, s) := rfl

@[simp] theorem assign_apply (f : σ → σ) (ω : Oracle K) (s : σ × ℕ) :
    (assign f : M K σ Unit) ω s = (.ok (), (f s.1, s.2)) := rfl

@[simp] theorem lift_ok (a : α) (ω : Oracle K) (s : σ × ℕ) :
    (lift (.ok a) : M K σ α) ω s = (.ok a, s) := rfl

@[simp] theorem lift_error (e : PyErr) (ω : Oracle K) (s : σ × ℕ) :
    (lift (.error e) : M K σ α) ω s = (.error e, s) := rfl

theorem lift_apply (e : Except PyErr α) (ω : Oracle K) (s : σ × ℕ) :
    (lift e : M K σ α) ω s = (e, s) := rfl

@[simp] theorem ite_apply' (c : Prop) [Decidable c] (x y : M K σ α) (ω : Oracle K) (s : σ × ℕ) :
    (if c then x else y) ω s = if c then x ω s else y ω s := by split <;> rfl

@[simp] theorem whenM_apply (c : Prop) [Decidable c] (m : M K σ Unit) (ω : Oracle K) (s : σ × ℕ) :
    whenM c m ω s = if c then m ω s else (.ok (), s) := by unfold whenM; split <;> rfl

section Draws
variable [Field K] [LinearOrder K]

/-- `rng.beta(a, b)` for scalars: numpy raises `ValueError` unless `a > 0` and `b > 0`. -/
def beta (a b : K) : M K σ K := fun ω s =>
  if a ≤ 0 ∨ b ≤ 0 then (.error .valueError, s) else (.ok (ω.beta s.2 a b), (s.1, s.2 + 1))

/-- The values of a vector of Beta draws, one stream position per entry. -/
def betaValues (ω : Oracle K) (pos : ℕ) (ps : List (K × K)) : List K :=
  ps.mapIdx (fun i p => ω.beta (pos + i) p.1 p.2)

/-- `rng.beta(a=<array>, b=<array>)`: `ValueError` if any parameter is not positive (nothing is drawn then). -/
def betaVec (ps : List (K × K)) : M K σ (List K) := fun ω s =>
  if ps.any (fun p => decide (p.1 ≤ 0 ∨ p.2 ≤ 0)) then (.error .valueError, s)
  else (.ok (betaValues ω s.2 ps), (s.1, s.2 + ps.length))

/-- `rng.beta(a=<scalar>, b=<scalar>, size=n)`; `ValueError` for an illegal parameter or a negative size. -/
def betaRep (a b : K) (n : ℤ) : M K σ (List K) := fun ω s =>
  if a ≤ 0 ∨ b ≤ 0 ∨ n < 0 then (.error .valueError, s)
  else (.ok (betaValues ω s.2 (List.replicate n.toNat (a, b))), (s.1, s.2 + n.toNat))

/-- `rng.binomial(n, p)` for scalars: `ValueError` unless `n >= 0` and `0 <= p <= 1`. -/
def binom (n : ℤ) (p : K) : M K σ ℤ := fun ω s =>
  if n < 0 ∨ p < 0 ∨ 1 < p then (.error .valueError, s)
  else (.ok (ω.binom s.2 n p), (s.1, s.2 + 1))

/-- `rng.binomial(n, <array p>)`. -/
def binomVec (n : ℤ) (ps : List K) : M K σ (List ℤ) := fun ω s =>
  if n < 0 ∨ ps.any (fun p => decide (p < 0 ∨ 1 < p)) then (.error .valueError, s)
  else (.ok (ps.mapIdx (fun i p => ω.binom (s.2 + i) n p)), (s.1, s.2 + ps.length))

/-- `rng.binomial(n, p, size=m)`; `ValueError` for illegal parameters or negative size. -/
def binomRep (n : ℤ) (p : K) (m : ℤ) : M K σ (List ℤ) := fun ω s =>
  if n < 0 ∨ p < 0 ∨ 1 < p ∨ m < 0 then (.error .valueError, s)
  else (.ok ((List.range m.toNat).map (fun i => ω.binom (s.2 + i) n p)), (s.1, s.2 + m.toNat))

/-- `rng.uniform(size=n)`; `ValueError` for a negative size. -/
def unifVec (n : ℤ) : M K σ (List K) := fun ω s =>
  if n < 0 then (.error .valueError, s)
  else (.ok ((List.range n.toNat).map (fun i => ω.unif (s.2 + i))), (s.1, s.2 + n.toNat))

/-- `rng.dirichlet(alpha)`: `ValueError` if some parameter is negative (older numpy versions also reject zero;
the theorems only use strictly positive parameters). -/
def dirichlet (l : List K) : M K σ (List K) := fun ω s =>
  if l.any (fun a => decide (a < 0)) then (.error .valueError, s)
  else (.ok (ω.dirichlet s.2 l), (s.1, s.2 + 1))

/-- `rng.choice(range(len(p)), p=p)`; `ValueError` if a probability is negative. -/
def choice (p : List K) : M K σ ℕ := fun ω s =>
  if p.any (fun a => decide (a < 0)) then (.error .valueError, s)
  else (.ok (ω.choice s.2 p), (s.1, s.2 + 1))

/-- `gumbel_max_sampling(logp, rng=rng)` on one column; `argmax` of an empty array is a `ValueError`. -/
def gumbelMax (l : List (Option K)) : M K σ ℕ := fun ω s =>
  if l.isEmpty then (.error .valueError, s) else (.ok (ω.gumbelMax s.2 l), (s.1, s.2 + 1))

/-- The outcome of a scipy optimiser / root finder. -/
def optim (v ps : List K) : M K σ (Option K) := fun ω s => (.ok (ω.optim s.2 v ps), (s.1, s.2 + 1))

end Draws

end M

end Verif
