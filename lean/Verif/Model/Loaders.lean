import Verif.Model.Base

/-! # `pyrichlet/utils/_loaders.py`

A csv file as pandas reads it: a header with `width` columns and rows of cells, where a cell that is empty or one of pandas' missing-value strings is `none`.  Parsing of cells
(quotes, numbers, blanks) is not modelled: `α` is the type of parsed cells.  A row with fewer cells than the header is filled with missing cells. -/

namespace Verif.Load
variable {α : Type}

/-- The file. -/
structure Csv (α : Type) where
  width : ℕ
  rows : List (List (Option α))

/-- The cell in column `j` of a row. -/
def cell (row : List (Option α)) (j : ℕ) : Option α := (row[j]?).join

/-- `pd.read_csv(.., usecols=cols)`: the columns in the order of the file, whatever the order of `cols`; `ValueError` for a column that the file does not have. -/
def readCsv (f : Csv α) (cols : List ℕ) : Except PyErr (List (List (Option α))) :=
  if ∃ c ∈ cols, f.width ≤ c then .error .valueError
  else .ok (f.rows.map (fun row => ((List.range f.width).filter (fun j => decide (j ∈ cols))).map (cell row)))

/-- `df.iloc[:, -1]` of one row. -/
def lastCell (row : List (Option α)) : Option α := (row.getLast?).join

/-- `load_chaetocnema`, `_loaders.py:9-13`: `index_col=0` takes the first column away; the last is the label. -/
def chaetocnema (f : Csv α) : Except PyErr (List (List (Option α)) × List (Option α)) := do
  let df ← readCsv f (List.range 8)
  let df := df.map (fun row => row.tail)
  pure (df.map (fun row => row.dropLast), df.map lastCell)

/-- `df.dropna()`: rows with a missing cell are left out. -/
def dropna (df : List (List (Option α))) : List (List (Option α)) := df.filter (fun row => row.all Option.isSome)

/-- `load_penguins`, `_loaders.py:16-20`. -/
def penguins (f : Csv α) : Except PyErr (List (List (Option α)) × List (Option α)) := do
  let df ← readCsv f [0, 2, 3, 4, 5]
  let df := dropna df
  pure (df.map (fun row => row.tail), df.map (fun row => (row.head?).join))

end Verif.Load
