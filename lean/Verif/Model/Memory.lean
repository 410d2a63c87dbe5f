import Mathlib.Data.List.Basic

/-!
Arrays as objects with an identity.

The rest of the model treats arrays as values. In Python an attribute, a saved state and a variable of the caller can hold the *same* array, and a
write through one of them is then seen through the others. This file models that: which statement makes a new array, which one binds a second name to
an array that exists, and which one writes into an array. What the new or changed numbers are is left open: every contents is an arbitrary function of
the contents that can be read at that moment, every branch and every number of passes through a loop is arbitrary, and a call may stop with an
exception after any of its statements. So the runs of this file include all runs of the code.

Not modelled: the bytes of an array (a view of the whole of an array counts as that array, an empty view as a new array), plotting, and the arrays that
numpy, scipy and sklearn make and drop inside one call.
-/

set_option linter.unusedSectionVars false

namespace Verif.Memory

/-- The attributes of a mixture and of its weighting structure that hold arrays, `weight_models/_base.py:18-22`, the constructors of the classes in
`weight_models/`, and `mixture_models/_base.py:62-94`. The dictionary `theta` is the family `atom j`; the dictionary of the saved state `i` is the family
`savedW i, savedU i, savedD i, savedAtom i j`, the one of the best state `mapW, mapU, mapD, mapAtom j`. -/
inductive Field
  | w | v | labels | bernoullis | binomials | vBase | dBase | countBase | varMatrix | varParams | alpha
  | y | mu | psi | d | u | affinity | atom (j : ℕ) | varD | varTheta (j : ℕ)
  | savedW (i : ℕ) | savedU (i : ℕ) | savedD (i : ℕ) | savedAtom (i j : ℕ)
  | mapW | mapU | mapD | mapAtom (j : ℕ)
  | simParams | nGroups | nAtoms
  deriving DecidableEq

/-- What can hold an array: attributes of the object `o`, local variables of a call to it, and the variables of the caller. The caller has the arrays
handed to a method that keeps them (`kept`), the arrays handed to a method that copies them or only reads them (`given`), the arrays of an object that a
method returned (`got`), the new arrays that a method returned (`made`), and the lists returned by `get_sim_params`, `get_n_groups`, `get_n_theta` (`list`). -/
inductive Name
  | obj (o : ℕ) (f : Field) | tmp (o k : ℕ)
  | kept (k : ℕ) | given (k : ℕ) | got (k : ℕ) | made (k : ℕ) | list (k : ℕ)
  deriving DecidableEq

/-- A statement as far as memory is concerned. -/
inductive Act (C : Type)
  /-- `x = ` an expression that makes a new array -/
  | new (x : Name) (f : (Name → Option C) → C)
  /-- `x = y`: both names hold one array afterwards -/
  | bind (x y : Name)
  /-- `x = y` where `y` is a local variable that is not used afterwards -/
  | move (x y : Name)
  /-- `x[...] = `, `x += `, `x.append`, `x.resize`: the array held by `x` is changed -/
  | store (x : Name) (f : (Name → Option C) → C)

/-- The memory: which array each name holds, what the arrays contain, and how many there are. -/
structure Mem (C : Type) where
  /-- the array held by a name -/
  env : Name → Option ℕ
  /-- the contents of the arrays -/
  cell : ℕ → Option C
  /-- the number of arrays made so far -/
  top : ℕ

variable {C : Type}

/-- The lists handed out by the getters are never read by a method. -/
def isList : Name → Bool
  | .list _ => true
  | _ => false

/-- The contents seen through a name. -/
def Mem.get (m : Mem C) (x : Name) : Option C := (m.env x).bind m.cell

/-- The contents that a method can read. -/
def Mem.read (m : Mem C) (x : Name) : Option C := if isList x then none else m.get x

/-- No array yet. -/
def Mem.empty : Mem C := ⟨fun _ => none, fun _ => none, 0⟩

/-- One statement. -/
def Mem.step (m : Mem C) : Act C → Mem C
  | .new x f => ⟨Function.update m.env x (some m.top), Function.update m.cell m.top (some (f m.read)), m.top + 1⟩
  | .bind x y => { m with env := Function.update m.env x (m.env y) }
  | .move x y => { m with env := Function.update (Function.update m.env x (m.env y)) y none }
  | .store x f => match m.env x with
    | none => m
    | some a => { m with cell := Function.update m.cell a (some (f m.read)) }

/-- A sequence of statements. -/
def Mem.run (m : Mem C) (acts : List (Act C)) : Mem C := acts.foldl Mem.step m

/-- How the statements of one call go: the numbers computed (`f`), the branches taken (`b`) and the numbers of passes through the loops (`n`), each
at its place in the call. A place is a path: the number of the statement, preceded by the numbers of the blocks and of the passes through loops it lies
in, so that two statements never share a place. -/
structure Way (C : Type) where
  /-- the numbers computed at a place -/
  f : List ℕ → (Name → Option C) → C
  /-- the branch taken at a place -/
  b : List ℕ → Bool
  /-- the number of passes at a place -/
  n : List ℕ → ℕ

/-- The numbers computed by statement `k` of a block. -/
abbrev Way.fn (W : Way C) (k : ℕ) : (Name → Option C) → C := W.f [k]

/-- The branch taken at statement `k` of a block. -/
abbrev Way.br (W : Way C) (k : ℕ) : Bool := W.b [k]

/-- The number of passes through loop `k` of a block. -/
abbrev Way.ct (W : Way C) (k : ℕ) : ℕ := W.n [k]

/-- The part of block `k`. -/
def Way.sub (W : Way C) (k : ℕ) : Way C := ⟨fun p => W.f (k :: p), fun p => W.b (k :: p), fun p => W.n (k :: p)⟩

/-- The statements of loop `k`. -/
def loop (W : Way C) (k : ℕ) (body : Way C → List (Act C)) : List (Act C) := (List.range (W.ct k)).flatMap (fun i => body ((W.sub k).sub i))

/-- The statements of the block `k`, a loop over keys. -/
def each (W : Way C) (k : ℕ) (ks : List ℕ) (body : ℕ → Way C → List (Act C)) : List (Act C) := ks.flatMap (fun j => body j ((W.sub k).sub j))

/-- The classes of weighting structures. -/
inductive Cls
  | dp | py | geo | dirichlet | equal | frequency | betaInBeta | betaInDirichlet | betaBernoulli | betaBinomial
  deriving DecidableEq

section Weights
variable (o : ℕ)

/-- Attribute of the object `o`. -/
abbrev at_ (f : Field) : Name := .obj o f

/-- `__init__`: `weight_models/_base.py:18-19` (`w`, `d`), `_beta_bernoulli.py:13-14`, `_beta_binomial.py:14-15`, `_beta_in_dirichlet.py:14-17`,
`_dirichlet_distribution.py:15-19` (`np.array(alpha)`: the list or array of the caller, `given 0`, is only read), and `v` of the other classes. -/
def ctor (c : Cls) (W : Way C) : List (Act C) :=
  [.new (.obj o .w) (W.fn 0), .new (.obj o .labels) (W.fn 1)] ++
  match c with
  | .betaBernoulli => [.new (.obj o .v) (W.fn 2), .new (.obj o .bernoullis) (W.fn 3)]
  | .betaBinomial => [.new (.obj o .v) (W.fn 2), .new (.obj o .binomials) (W.fn 3)]
  | .betaInDirichlet => [.new (.obj o .v) (W.fn 2), .new (.obj o .vBase) (W.fn 3), .new (.obj o .dBase) (W.fn 4), .new (.obj o .countBase) (W.fn 5)]
  | .dirichlet => [.new (.obj o .alpha) (W.fn 2)]
  | .equal | .frequency => []
  | _ => [.new (.obj o .v) (W.fn 2)]

/-- `complete`: `_dirichlet_process.py:49-57`, `_pitman_yor_process.py:58-71`, `_geometric_process.py:32-38`, `_beta_in_beta.py:75-91` (all: `v` and `w`
are new arrays, if anything is done), `_beta_binomial.py:54-72` (`np.append` makes new arrays), `_beta_bernoulli.py:68-84`,
`_beta_in_dirichlet.py:104-122` (`p /= p.sum()`, `_count_base[jj] += 1` and `_count_base += [1]` write into arrays), `_dirichlet_distribution.py:40-44`
(`random()` if there are no weights; `a_c.resize` writes into a local array), `_equal.py:19-20`, `_frequency.py:23-24`. -/
def complete : Cls → Way C → List (Act C)
  | .betaBinomial, W =>
    (if W.br 0 then [.new (.obj o .binomials) (W.fn 0), .new (.obj o .v) (W.fn 1)] else []) ++
    loop W 0 (fun W => [.new (.obj o .binomials) (W.fn 0), .new (.obj o .v) (W.fn 1)]) ++ [.new (.obj o .w) (W.fn 2)]
  | .betaBernoulli, W => if W.br 0 then
      (if W.br 1 then [.new (.obj o .v) (W.fn 0)] else []) ++
      [.new (.tmp o 0) (W.fn 1), .new (.obj o .bernoullis) (W.fn 2), .new (.tmp o 0) (W.fn 3), .new (.tmp o 1) (W.fn 4), .new (.obj o .v) (W.fn 5), .new (.obj o .w) (W.fn 6)]
    else []
  | .betaInDirichlet, W =>
    (if W.br 0 then [.new (.obj o .vBase) (W.fn 0), .new (.obj o .countBase) (W.fn 1)] else []) ++
    loop W 0 (fun W => [.new (.tmp o 0) (W.fn 0), .store (.tmp o 0) (W.fn 1)] ++
      (if W.br 0 then [.new (.obj o .v) (W.fn 2), .store (.obj o .countBase) (W.fn 3)]
       else [.new (.obj o .vBase) (W.fn 4), .store (.obj o .countBase) (W.fn 5), .new (.obj o .v) (W.fn 6)]) ++
      [.new (.obj o .dBase) (W.fn 7)]) ++ [.new (.obj o .w) (W.fn 2)]
  | .dirichlet, W => if W.br 0 then
      (if W.br 1 then [.new (.tmp o 0) (W.fn 0), .store (.tmp o 0) (W.fn 1)] else []) ++ [.new (.obj o .w) (W.fn 2)]
    else []
  | .equal, W => [.new (.obj o .w) (W.fn 0)]
  | .frequency, W => [.new (.obj o .w) (W.fn 0)] ++ (if W.br 0 then [.new (.obj o .w) (W.fn 1)] else [])
  | _, W => if W.br 0 then [.new (.obj o .v) (W.fn 0), .new (.obj o .w) (W.fn 1)] else []

/-- `_random_bernoullis`, `_beta_bernoulli.py:86-120`: the old path gets a 1 at the front *in place*, the new path is a local array that is written
into and then becomes the attribute. -/
def bernoulliPath (W : Way C) : List (Act C) :=
  [.new (.tmp o 0) (W.fn 0), .store (.obj o .bernoullis) (W.fn 1)] ++
  (if W.br 0 then [.new (.tmp o 1) (W.fn 2), .new (.tmp o 2) (W.fn 3), .store (.tmp o 0) (W.fn 4)] ++ loop W 0 (fun W => [.store (.tmp o 0) (W.fn 0)]) else []) ++
  [.move (.obj o .bernoullis) (.tmp o 0)]

/-- `random`: `_dirichlet_process.py:25-47`, `_pitman_yor_process.py:29-56`, `_geometric_process.py:22-30`, `_beta_in_beta.py:42-73`,
`_beta_binomial.py:31-52`, `_beta_bernoulli.py:36-66`, `_beta_in_dirichlet.py:30-102` (`_d_base[j] = ...` writes into the array, of which
`_d_base[:n]` is a view; `v_base[jj] = ...` writes into a local array that becomes the attribute), `_dirichlet_distribution.py:26-38`,
`_equal.py:15-17`, `_frequency.py:15-21`. -/
def random : Cls → Way C → List (Act C)
  | .betaBinomial, W => [.new (.obj o .v) (W.fn 0)] ++
    (if W.br 0 then [.new (.tmp o 0) (W.fn 1), .new (.tmp o 1) (W.fn 2), .new (.obj o .binomials) (W.fn 3), .new (.obj o .v) (W.fn 4), .new (.obj o .w) (W.fn 5)] else []) ++
    (if W.br 1 then complete o .betaBinomial (W.sub 6) else [])
  | .betaBernoulli, W => [.new (.obj o .v) (W.fn 0)] ++ bernoulliPath o (W.sub 100) ++
    [.new (.tmp o 0) (W.fn 1), .new (.tmp o 1) (W.fn 2), .new (.obj o .v) (W.fn 3), .new (.obj o .v) (W.fn 4), .new (.obj o .w) (W.fn 5)] ++
    (if W.br 0 then complete o .betaBernoulli (W.sub 6) else [])
  | .betaInDirichlet, W => [.new (.obj o .v) (W.fn 0), .new (.obj o .vBase) (W.fn 1)] ++
    (if W.br 0 then complete o .betaInDirichlet (W.sub 100) else
      (if W.br 1 then [.new (.obj o .dBase) (W.fn 2)] else if W.br 2 then [.store (.obj o .dBase) (W.fn 3)] else []) ++
      [.new (.tmp o 0) (W.fn 4)] ++ loop W 0 (fun W => [.store (.tmp o 0) (W.fn 0)]) ++ [.move (.obj o .vBase) (.tmp o 0)] ++
      loop W 1 (fun W => (if W.br 0 then [.new (.tmp o 1) (W.fn 0)] else []) ++
        (if W.br 1 then [.store (.obj o .dBase) (W.fn 1)] else [.new (.obj o .dBase) (W.fn 2)]) ++
        (if W.br 2 then [.new (.obj o .vBase) (W.fn 3)] else [])) ++
      [.new (.obj o .countBase) (W.fn 5), .new (.obj o .v) (W.fn 6), .new (.obj o .w) (W.fn 7)])
  | .dirichlet, W => (if W.br 0 then [.new (.tmp o 0) (W.fn 0), .store (.tmp o 0) (W.fn 1)] else []) ++ [.new (.obj o .w) (W.fn 2)]
  | .equal, W => [.new (.obj o .w) (W.fn 0)]
  | .frequency, W => [.new (.obj o .w) (W.fn 0)] ++ (if W.br 0 then [.new (.obj o .w) (W.fn 1)] else [])
  | c, W => (if W.br 0 then [.new (.obj o .v) (W.fn 0)] else []) ++ (if W.br 1 then [.new (.obj o .v) (W.fn 1), .new (.obj o .w) (W.fn 2)] else []) ++
    (if W.br 2 then complete o c (W.sub 3) else [])

/-- `tail`, `weight_models/_base.py:113-120` and `_geometric_process.py:40-45`. -/
def tail (c : Cls) (W : Way C) : List (Act C) :=
  (if W.br 0 then random o c (W.sub 1) else []) ++ loop W 0 (complete o c)

/-- `fit`, `weight_models/_base.py:94`: `np.array(d)` makes a new array from the one of the caller. `reset`, `:133`. -/
def fitLabels (W : Way C) : List (Act C) := [.new (.obj o .labels) (W.fn 0)]

/-- `fit_variational`: `_dirichlet_process.py:59-67`, `_pitman_yor_process.py:73-82`, `_geometric_process.py:47-56`, `_dirichlet_distribution.py:46-54`,
`_equal.py:22-25`, `_frequency.py:26-30`: the matrix `q` is kept, not copied; the parameters are a new array, filled in place for three of the classes. The
other classes raise `NotImplementedError`, `weight_models/_base.py:155-164`. -/
def fitMatrix (c : Cls) (q : Name) (W : Way C) : List (Act C) :=
  match c with
  | .dp | .py | .geo => [.bind (.obj o .varMatrix) q, .new (.obj o .varParams) (W.fn 0), .store (.obj o .varParams) (W.fn 1), .store (.obj o .varParams) (W.fn 2)]
  | .dirichlet => [.bind (.obj o .varMatrix) q, .new (.obj o .varParams) (W.fn 0)]
  | .equal | .frequency => [.bind (.obj o .varMatrix) q]
  | _ => []

/-- `variational_mean_log_p_d__w(q)`, which keeps its argument in `_frequency.py:41-49` and only reads it in the other classes. -/
def meanLogPd (c : Cls) (q : Name) : List (Act C) := if c = .frequency then [.bind (.obj o .varMatrix) q] else []

end Weights

section Mixture
variable (o : ℕ)

/-- `__init__`, `mixture_models/_base.py:66-88`: the arrays `mu_prior` and `psi_prior` of the caller are kept. -/
def mixCtor (c : Cls) (muGiven psiGiven : Bool) (k : ℕ) (W : Way C) : List (Act C) :=
  ctor o c (W.sub 7) ++
  (if muGiven then [.bind (.obj o .mu) (.kept k)] else []) ++ (if psiGiven then [.bind (.obj o .psi) (.kept (k + 1))] else []) ++
  [.new (.obj o .y) (W.fn 0), .new (.obj o .d) (W.fn 1), .new (.obj o .u) (W.fn 2), .new (.obj o .affinity) (W.fn 3),
   .new (.obj o .simParams) (W.fn 4), .new (.obj o .nGroups) (W.fn 5), .new (.obj o .nAtoms) (W.fn 6)]

/-- How the data are handed over. -/
inductive Data
  | /-- an array or a list, copied: `np.copy(y)`, `np.array(y)` -/ array (k : ℕ)
  | /-- a data frame or a series: `y.to_numpy()` is a view of its memory -/ frame (k : ℕ)

/-- `_initialize_common_params`, `mixture_models/_base.py:703-746`: `np.array(mu_prior)` and the mean are new arrays, `np.atleast_2d(psi_prior)` of a matrix
is that matrix. -/
def common (D : Data) (W : Way C) : List (Act C) :=
  (match D with | .array _ => [.new (.obj o .y) (W.fn 0)] | .frame k => [.bind (.obj o .y) (.kept k)]) ++
  [.new (.obj o .mu) (W.fn 1)] ++ (if W.br 0 then [.new (.obj o .psi) (W.fn 2)] else [])

/-- `_get_run_params` and `_save_params`, `mixture_models/_base.py:850-861`: the dictionary of the state holds the arrays themselves (`get_weights()`, `u`,
`d` and the pairs in `theta`); the three lists are appended to and the affinity matrix is added to in place. `i`: the position of the state; `ks`: the keys of
`theta`. -/
def save (i : ℕ) (ks : List ℕ) (W : Way C) : List (Act C) :=
  [.bind (.obj o (.savedW i)) (.obj o .w), .bind (.obj o (.savedU i)) (.obj o .u), .bind (.obj o (.savedD i)) (.obj o .d)] ++
  ks.map (fun j => .bind (.obj o (.savedAtom i j)) (.obj o (.atom j))) ++
  [.store (.obj o .simParams) (W.fn 0), .store (.obj o .nGroups) (W.fn 1), .store (.obj o .nAtoms) (W.fn 2), .store (.obj o .affinity) (W.fn 3)]

/-- `_update_map_params`, `mixture_models/_base.py:863-874`: `assignation_log_likelihood` completes the weights (`weight_models/_base.py:126`), atoms looked up
for the first time are made, and the best state holds the arrays themselves. -/
def updateMap (c : Cls) (ks : List ℕ) (W : Way C) : List (Act C) :=
  each W 0 ks (fun j W => if W.br 0 then [.new (.obj o (.atom j)) (W.fn 0)] else []) ++ complete o c (W.sub 1) ++
  (if W.br 0 then [.bind (.obj o .mapW) (.obj o .w), .bind (.obj o .mapU) (.obj o .u), .bind (.obj o .mapD) (.obj o .d)] ++
    ks.map (fun j => .bind (.obj o (.mapAtom j)) (.obj o (.atom j))) else [])

/-- `_gibbs_step`, `mixture_models/_base.py:876-908`. -/
def gibbsStep (c : Cls) (ks : List ℕ) (W : Way C) : List (Act C) :=
  each W 0 ks (fun j W => if W.br 0 then [.new (.tmp o 0) (W.fn 0), .new (.tmp o 1) (W.fn 1), .new (.obj o (.atom j)) (W.fn 2)] else []) ++
  fitLabels o W ++ random o c (W.sub 1) ++ [.new (.obj o .u) (W.fn 1)] ++ tail o c (W.sub 2) ++
  each W 3 ks (fun j W => if W.br 0 then [.new (.obj o (.atom j)) (W.fn 0)] else []) ++
  [.new (.tmp o 0) (W.fn 2), .store (.tmp o 0) (W.fn 3), .new (.obj o .d) (W.fn 4)]

/-- `_update_var_d`, `mixture_models/_base.py:986-1006`: the matrix is filled, shifted and normalised in place before it becomes the attribute. -/
def updateVarD (W : Way C) : List (Act C) :=
  [.new (.tmp o 0) (W.fn 0)] ++ loop W 0 (fun W => [.store (.tmp o 0) (W.fn 0)]) ++
  [.store (.tmp o 0) (W.fn 1), .new (.tmp o 0) (W.fn 2), .store (.tmp o 0) (W.fn 3), .store (.tmp o 0) (W.fn 4), .move (.obj o .varD) (.tmp o 0)]

/-- `_update_var_theta`, `mixture_models/_base.py:965-984`. -/
def updateVarTheta (W : Way C) : List (Act C) := each W 0 (List.range (W.ct 0)) (fun j W => [.new (.obj o (.varTheta j)) (W.fn 0)])

/-- `_initialize_variational_params`, `mixture_models/_base.py:798-848`. -/
def initVar (c : Cls) (W : Way C) : List (Act C) :=
  (if W.br 0 then [.new (.tmp o 0) (W.fn 0), .store (.tmp o 0) (W.fn 1), .move (.obj o .varD) (.tmp o 0), .new (.tmp o 1) (W.fn 2)] ++ initFit ++
      updateVarTheta o (W.sub 100) ++ updateVarD o (W.sub 200)
   else updateVarTheta o (W.sub 100) ++ [.new (.obj o .varD) (W.fn 3)]) ++ fitMatrix o c (.obj o .varD) (W.sub 10)
where
  /-- `fit_variational(np.empty(...))`: the empty matrix is made for the call -/
  initFit : List (Act C) := [.new (.obj o .varMatrix) (W.fn 4)] ++ (if W.br 1 then [.new (.obj o .varParams) (W.fn 5), .store (.obj o .varParams) (W.fn 6)] else [])

/-- The loop of `fit_variational`, `mixture_models/_base.py:200-208`, with `_maximize_variational` (`:941-944`) and `_calc_elbo` (`:946-955`), which hands
`var_d` to the weighting structure. -/
def varLoop (c : Cls) (W : Way C) : List (Act C) :=
  loop W 0 (fun W => updateVarD o (W.sub 0) ++ fitMatrix o c (.obj o .varD) (W.sub 1) ++
    updateVarTheta o (W.sub 2) ++ meanLogPd o c (.obj o .varD))

/-- `fit_variational`, `mixture_models/_base.py:144-211`. -/
def fitVar (c : Cls) (D : Data) (warm : Bool) (W : Way C) : List (Act C) :=
  common o D W ++ (if warm then [] else initVar o c (W.sub 10)) ++ varLoop o c (W.sub 1000)

/-- `_initialize_gibbs_params`, `mixture_models/_base.py:748-796`: the lists are replaced, not emptied. -/
def initGibbs (c : Cls) (W : Way C) : List (Act C) :=
  [.new (.obj o .simParams) (W.fn 0), .new (.obj o .nGroups) (W.fn 1), .new (.obj o .nAtoms) (W.fn 2), .new (.obj o .affinity) (W.fn 3), .new (.obj o .u) (W.fn 4)] ++
  (if W.br 0 then tail o c (W.sub 10) else complete o c (W.sub 10)) ++
  (if W.br 1 then (common o (.array 0) (W.sub 2000) ++ initVar o c (W.sub 3000) ++ varLoop o c (W.sub 4000)) else []) ++ [.new (.obj o .d) (W.fn 5)]

/-- `fit_gibbs`, `mixture_models/_base.py:102-142`. `ks t`: the keys of `theta` in iteration `t`; `pos t`: the position at which the state is saved. -/
def fitGibbs (c : Cls) (D : Data) (warm : Bool) (ks : ℕ → List ℕ) (pos : ℕ → ℕ) (W : Way C) : List (Act C) :=
  common o D W ++ (if warm then [] else initGibbs o c (W.sub 0) ++ updateMap o c (ks 0) (W.sub 1)) ++
  each W 2 (List.range (W.ct 0)) (fun t W => gibbsStep o c (ks (t + 1)) (W.sub 0) ++ updateMap o c (ks (t + 1)) (W.sub 1) ++
    (if W.br 0 then save o (pos t) (ks (t + 1)) (W.sub 2) else []))

end Mixture

/-- A call made by the caller to the object `o`. -/
inductive Call
  | ctor (c : Cls) | fit (k : ℕ) | reset | random (c : Cls) (k : ℕ) | complete (c : Cls) (k : ℕ) | tail (c : Cls) (k : ℕ)
  | /-- `get_weights()` -/ getWeights (k : ℕ)
  | /-- `get_normalized_weights`, `get_normalized_cumulative_weights`, `random_assignment`, and of a mixture all densities, affinity matrices and clusterings,
      `mixture_models/_base.py:213-700`: a new array is returned -/ result (k : ℕ)
  | /-- `assignation_log_likelihood`, `weight_models/_base.py:122-129` -/ assignationLogLik (c : Cls)
  | fitVariational (c : Cls) (k : ℕ) | meanLogPd (c : Cls) (k : ℕ)
  | mixCtor (c : Cls) (muGiven psiGiven : Bool) (k : ℕ)
  | fitGibbs (c : Cls) (D : Data) (warm : Bool) (ks : ℕ → List ℕ) (pos : ℕ → ℕ)
  | fitVar (c : Cls) (D : Data) (warm : Bool)
  | /-- `get_sim_params()`, `mixture_models/_base.py:700-701` -/ getSimParams (k : ℕ)
  | /-- an array of the saved state `i`, reached through that list -/ getSaved (i k : ℕ)
  | /-- `get_n_groups()`, `:694-695` -/ getNGroups (k : ℕ)
  | /-- `get_n_theta()`, `:697-698` -/ getNTheta (k : ℕ)

/-- The statements of a call. What a method returns is bound to a variable of the caller. -/
def Call.acts (o : ℕ) (W : Way C) : Call → List (Act C)
  | .ctor c => Memory.ctor o c W
  | .fit _ | .reset => fitLabels o W
  | .random c k => Memory.random o c W ++ [.bind (.got k) (.obj o .w)]
  | .complete c k => Memory.complete o c W ++ (if c = .betaInDirichlet then [] else [.bind (.got k) (.obj o .w)])
  | .tail c k => Memory.tail o c W ++ [.bind (.got k) (.obj o .w)]
  | .getWeights k => [.bind (.got k) (.obj o .w)]
  | .result k => [.new (.made k) (W.fn 0)]
  | .assignationLogLik c => Memory.complete o c W
  | .fitVariational c k => fitMatrix o c (.kept k) W
  | .meanLogPd c k => Memory.meanLogPd o c (.kept k)
  | .mixCtor c a b k => Memory.mixCtor o c a b k W
  | .fitGibbs c D warm ks pos => Memory.fitGibbs o c D warm ks pos W
  | .fitVar c D warm => Memory.fitVar o c D warm W
  | .getSimParams k => [.bind (.list k) (.obj o .simParams)]
  | .getSaved i k => [.bind (.got k) (.obj o (.savedW i)), .bind (.got (k + 1)) (.obj o (.savedU i)), .bind (.got (k + 2)) (.obj o (.savedD i))]
  | .getNGroups k => [.bind (.list k) (.obj o .nGroups)]
  | .getNTheta k => [.bind (.list k) (.obj o .nAtoms)]

/-- An event of a program that uses the library. -/
inductive Event (C : Type)
  | /-- a call to object `o`; with `cut = some l` it raises after `l` statements -/ call (o : ℕ) (c : Call) (W : Way C) (cut : Option ℕ)
  | /-- the caller makes an array to hand to a method that keeps it -/ makeKept (k : ℕ) (x : C)
  | /-- the caller makes an array to hand to a method that does not -/ makeGiven (k : ℕ) (x : C)
  | /-- the caller writes into an array of the latter kind -/ writeGiven (k : ℕ) (x : C)
  | /-- the caller writes into a result that is a new array -/ writeMade (k : ℕ) (x : C)

/-- The statements of an event. -/
def Event.acts : Event C → List (Act C)
  | .call o c W none => c.acts o W
  | .call o c W (some l) => (c.acts o W).take l
  | .makeKept k x => [.new (.kept k) (fun _ => x)]
  | .makeGiven k x => [.new (.given k) (fun _ => x)]
  | .writeGiven k x => [.store (.given k) (fun _ => x)]
  | .writeMade k x => [.store (.made k) (fun _ => x)]

/-- A program that uses any number of objects of the library. -/
def Mem.runs (m : Mem C) (es : List (Event C)) : Mem C := es.foldl (fun m e => m.run e.acts) m

end Verif.Memory
