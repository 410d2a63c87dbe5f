import Verif.Model.VarFit

/-!
# The remaining result methods of `BaseGaussianMixture`

`/repo/pyrichlet/mixture_models/_base.py:332-355` (`gibbs_eap_spectral_consensus_cluster`), `386-487` (`gibbs_map_pairplot`) and `695-702` (the getters).

Of `gibbs_map_pairplot` the part modelled is what decides the contents of the figure: which observations get which colour index, which component's curve and
ellipse is drawn in that colour, the curves, which axes are shared and when the call raises; the points of the ellipses are in `Model/Ellipse.lean`.  Tick
marks, labels and the colours themselves are not modelled.
-/

namespace Verif.Mix
variable {K : Type} [Field K] [LinearOrder K] {m : ℕ} {C : WeightClass K} {Atom : Type}

namespace GM
/-- `gibbs_eap_spectral_consensus_cluster`, `_base.py:332-355`; `spectral` is `SpectralClustering(..).fit_predict`. -/
def spectral (W : World K m Atom) (predict : List (List K) → Except PyErr (List ℕ)) (s : GM C m Atom) (y : Option (YArg K m)) : Except PyErr (List ℕ) :=
  if s.gibbsFitted = false then .error .notFittedError
  else match (match y with
      | none => eapAffinity s
      | some y => eapAffinityAt W s y) with
    | .error e => .error e
    | .ok a => predict a

/-- `get_n_groups`, `get_n_theta`, `get_sim_params`, `_base.py:695-702`: no check of the flag. -/
def getters (s : GM C m Atom) : List ℕ × List ℕ × List (RunParams K Atom) := (s.nGroups, s.nAtoms, s.saved)

/-! ### `gibbs_map_pairplot` -/

/-- `np.linspace(a, b, n)`. -/
def linspace (a b : K) (n : ℕ) : List K := (List.range n).map (fun i : ℕ => a + (i : K) * ((b - a) / ((n : K) - 1)))

/-- `self.y[:, it].min()` and `.max()`, `_base.py:441-442` (with rows). -/
def colMin (y : List (Fin m → K)) (it : Fin m) : K := match y.map (fun r => r it) with
  | [] => 0
  | x :: xs => xs.foldl min x

/-- See `colMin`. -/
def colMax (y : List (Fin m → K)) (it : Fin m) : K := match y.map (fun r => r it) with
  | [] => 0
  | x :: xs => xs.foldl max x

/-- `y_range`, `_base.py:441-446`: one hundred points. -/
def plotRange (y : List (Fin m → K)) (it : Fin m) : List K :=
  linspace (colMin y it - (colMax y it - colMin y it) / 4) (colMax y it + (colMax y it - colMin y it) / 4) 100

/-- The argument `y_range` of `gibbs_map_density`: rows of which only one coordinate is read (`x[:, 0]`, `_utils.py:84`). -/
def rangeRows (y : List (Fin m → K)) (it : Fin m) : YArg K m := .rows ((plotRange y it).map (fun t _ => t))

/-- The number of rows of the colour table, `_base.py:403-406`. -/
def colourCount (grp : List ℕ) : ℕ := if 10 < grp.foldl max 0 then (npUnique grp).length + 1 else 10

/-- A colour: a row of the table or black. -/
inductive Paint where
  | tab (i : ℕ)
  | black
  deriving DecidableEq, Repr

/-- A filled curve of a panel of the diagonal. -/
structure Curve (K : Type) where
  component : ℕ
  paint : Paint
  dens : List K
  deriving DecidableEq

/-- One panel: on the diagonal filled curves and a black line, elsewhere the colours of the observations and for each ellipse its component and its colour. -/
inductive Panel (K : Type) where
  | diagonal (curves : List (Curve K)) (line : List K)
  | scatter (points : List ℕ) (ellipses : List (ℕ × ℕ))
  deriving DecidableEq

/-- The coloured curves, `_base.py:447-452`, for the groups `js`; `n` is the length of the colour table. -/
def colouredCurves (W : World K m Atom) (s : GM C m Atom) (n : ℕ) (it : Fin m) : List ℕ → Except PyErr (List (Curve K))
  | [] => .ok []
  | j :: js => match mapDensity W s (some (rangeRows s.y it)) (.int it) (some j) with
    | .error e => .error e
    | .ok dens =>
      if n ≤ j then .error .indexError
      else match colouredCurves W s n it js with
        | .error e => .error e
        | .ok cs => .ok (⟨j, .tab j, dens⟩ :: cs)

/-- The black curves, `_base.py:453-460`, for the components `js` that are not in `grp` and whose density exceeds `1e-4` somewhere. -/
def blackCurves (W : World K m Atom) (s : GM C m Atom) (grp : List ℕ) (it : Fin m) : List ℕ → Except PyErr (List (Curve K))
  | [] => .ok []
  | j :: js =>
    if j ∈ grp then blackCurves W s grp it js
    else match mapDensity W s (some (rangeRows s.y it)) (.int it) (some j) with
      | .error e => .error e
      | .ok dens => match blackCurves W s grp it js with
        | .error e => .error e
        | .ok cs => .ok (if dens.any (fun x => decide (1 / 10000 < x)) then ⟨j, .black, dens⟩ :: cs else cs)

/-- A panel of the diagonal, `_base.py:440-465`. -/
def diagonalPanel (W : World K m Atom) (s : GM C m Atom) (p : RunParams K Atom) (grp : List ℕ) (it : Fin m) : Except PyErr (Panel K) :=
  match colouredCurves W s (colourCount grp) it (npUnique grp) with
  | .error e => .error e
  | .ok cs => match blackCurves W s grp it (List.range p.w.length) with
    | .error e => .error e
    | .ok bs => match mapDensity W s (some (rangeRows s.y it)) (.int it) none with
      | .error e => .error e
      | .ok line => .ok (.diagonal (cs ++ bs) line)

/-- The ellipses, `_base.py:469-486`: `map_sim_params["theta"][j]`, drawn in `color[j]`. -/
def ellipses (theta : List (ℕ × Atom)) (n : ℕ) : List ℕ → Except PyErr (List (ℕ × ℕ))
  | [] => .ok []
  | j :: js => match theta.lookup j with
    | none => .error .keyError
    | some _ =>
      if n ≤ j then .error .indexError
      else match ellipses theta n js with
        | .error e => .error e
        | .ok es => .ok ((j, j) :: es)

/-- A panel off the diagonal, `_base.py:466-486`: `color[grp]` for the points, then the ellipses. -/
def scatterPanel (p : RunParams K Atom) (grp : List ℕ) : Except PyErr (Panel K) :=
  if grp.any (fun g => decide (colourCount grp ≤ g)) then .error .indexError
  else match ellipses p.theta (colourCount grp) (npUnique grp) with
    | .error e => .error e
    | .ok es => .ok (.scatter grp es)

/-- The panels at the places `ps` (column `it`, row `it2`), `_base.py:425-487`. -/
def panels (W : World K m Atom) (s : GM C m Atom) (p : RunParams K Atom) (grp : List ℕ) : List (Fin m × Fin m) → Except PyErr (List ((Fin m × Fin m) × Panel K))
  | [] => .ok []
  | q :: qs => match (if q.1 = q.2 then diagonalPanel W s p grp q.1 else scatterPanel p grp) with
    | .error e => .error e
    | .ok x => match panels W s p grp qs with
      | .error e => .error e
      | .ok xs => .ok ((q, x) :: xs)

/-- The order in which the panels are made, `_base.py:425-427`. -/
def places (m : ℕ) : List (Fin m × Fin m) := (List.finRange m).flatMap (fun it => (List.finRange m).map (fun it2 => (it, it2)))

/-- `gibbs_map_pairplot`, `_base.py:386-487`: on an object without data (`y = np.array([])`) `self.y.shape[1]` raises `IndexError` before the flag is
looked at.  (Data without rows are not told apart from no data.)  `plt.subplots` raises `ValueError` for no columns and returns a single `Axes`, not an
array, for one column, so that `axes[-1, it]` (411) is a `TypeError`. -/
def pairplot (W : World K m Atom) (s : GM C m Atom) : Except PyErr (List ((Fin m × Fin m) × Panel K)) :=
  if s.y = [] then .error .indexError
  else match mapCluster W s none with
    | .error e => .error e
    | .ok (grp, _) =>
      if m = 0 then .error .valueError
      else if m = 1 then .error .typeError
      else match s.mapParams with
        | none => .error .typeError
        | some p => panels W s p grp (places m)

/-- The calls `axes[it, a].sharey(axes[it, b])` for row `it` of `n`, `_base.py:414-423`. -/
def shareCalls (n it : ℕ) : List (ℕ × ℕ) := (List.range (n - 1)).filterMap (fun it2 =>
  if it = it2 then none
  else
    let it3 := if it = it2 + 1 then it2 + 1 + 1 else it2 + 1
    if it3 = n then none else some (it2, it3))
end GM
end Verif.Mix
