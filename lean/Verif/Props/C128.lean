import Verif.Model.Loaders

/-!
# C128: the data sets are loaded with labels that belong to their rows

For every file with the columns of the shipped one (and any number of rows, cells and missing cells): measurements and labels come from the same rows, in the order of the file.
`load_penguins` leaves out exactly the rows with a missing species or measurement, so nothing in its result is missing; `load_chaetocnema` keeps every row, missing cells included.
A file with too few columns is rejected.
-/

namespace Verif.Load
variable {α : Type}

/-- The measurements and the label of a row of the flea-beetle file: columns 1 to 6, column 7. -/
def beetle (row : List (Option α)) : List (Option α) × Option α :=
  ([cell row 1, cell row 2, cell row 3, cell row 4, cell row 5, cell row 6], cell row 7)

/-- The measurements and the label of a row of the penguin file: columns 2 to 5, column 0. -/
def penguin (row : List (Option α)) : List (Option α) × Option α := ([cell row 2, cell row 3, cell row 4, cell row 5], cell row 0)

/-- Nothing is missing in columns 0 and 2 to 5. -/
def Whole (row : List (Option α)) : Prop := ∀ j ∈ [0, 2, 3, 4, 5], (cell row j).isSome

instance (row : List (Option α)) : Decidable (Whole row) := by unfold Whole; infer_instance

theorem range_split (n k : ℕ) : List.range (k + n) = List.range k ++ (List.range n).map (k + ·) := List.range_add

theorem used8 (n : ℕ) : (List.range (8 + n)).filter (fun j => decide (j ∈ List.range 8)) = [0, 1, 2, 3, 4, 5, 6, 7] := by
  rw [range_split, List.filter_append]
  have : ((List.range n).map (8 + ·)).filter (fun j => decide (j ∈ List.range 8)) = [] := by
    rw [List.filter_eq_nil_iff]
    intro j hj
    obtain ⟨i, -, rfl⟩ := List.mem_map.1 hj
    simp
  rw [this]
  rfl

theorem used5 (n : ℕ) : (List.range (6 + n)).filter (fun j => decide (j ∈ [0, 2, 3, 4, 5])) = [0, 2, 3, 4, 5] := by
  rw [range_split, List.filter_append]
  have : ((List.range n).map (6 + ·)).filter (fun j => decide (j ∈ [0, 2, 3, 4, 5])) = [] := by
    rw [List.filter_eq_nil_iff]
    intro j hj
    obtain ⟨i, -, rfl⟩ := List.mem_map.1 hj
    simp
    omega
  rw [this]
  rfl

/-- **C128**, `load_chaetocnema`: every row, in order, with its label. -/
theorem C128_chaetocnema (f : Csv α) (hw : 8 ≤ f.width) :
    chaetocnema f = .ok (f.rows.map (fun r => (beetle r).1), f.rows.map (fun r => (beetle r).2)) := by
  obtain ⟨n, hn⟩ := Nat.exists_eq_add_of_le hw
  have h : readCsv f (List.range 8) = .ok (f.rows.map (fun row => [0, 1, 2, 3, 4, 5, 6, 7].map (cell row))) := by
    unfold readCsv
    rw [if_neg, hn, used8]
    rintro ⟨c, hc, h⟩
    rw [List.mem_range] at hc
    omega
  unfold chaetocnema
  rw [h]
  simp only [bind, Except.bind, pure, Except.pure, List.map_map]
  rfl

/-- **C128**, `load_penguins`: the rows without missing species or measurement, in order, with their labels. -/
theorem C128_penguins (f : Csv α) (hw : 6 ≤ f.width) :
    penguins f = .ok ((f.rows.filter (fun r => decide (Whole r))).map (fun r => (penguin r).1), (f.rows.filter (fun r => decide (Whole r))).map (fun r => (penguin r).2)) := by
  obtain ⟨n, hn⟩ := Nat.exists_eq_add_of_le hw
  have h : readCsv f [0, 2, 3, 4, 5] = .ok (f.rows.map (fun row => [0, 2, 3, 4, 5].map (cell row))) := by
    unfold readCsv
    rw [if_neg, hn, used5]
    rintro ⟨c, hc, h⟩
    have : c ≤ 5 := by
      simp only [List.mem_cons, List.not_mem_nil, or_false] at hc
      omega
    omega
  unfold penguins
  rw [h]
  have e : dropna (f.rows.map (fun row => [0, 2, 3, 4, 5].map (cell row))) = (f.rows.filter (fun r => decide (Whole r))).map (fun row => [0, 2, 3, 4, 5].map (cell row)) := by
    unfold dropna
    rw [List.filter_map]
    congr 1
    apply List.filter_congr
    intro r _
    simp [Whole]
  simp only [bind, Except.bind, pure, Except.pure, e, List.map_map]
  rfl

/-- The labels are as many as the rows of measurements, and nothing is missing. -/
theorem C128_complete (f : Csv α) (X : List (List (Option α))) (y : List (Option α)) (h : penguins f = .ok (X, y)) :
    X.length = y.length ∧ (∀ c ∈ y, c.isSome) ∧ ∀ r ∈ X, r.length = 4 ∧ ∀ c ∈ r, c.isSome := by
  have hw : 6 ≤ f.width := by
    by_contra hlt
    have : readCsv f [0, 2, 3, 4, 5] = .error .valueError := by
      unfold readCsv
      exact if_pos ⟨5, by simp, by omega⟩
    unfold penguins at h
    rw [this] at h
    cases h
  rw [C128_penguins f hw] at h
  cases h
  refine ⟨by simp, ?_, ?_⟩
  · intro c hc
    obtain ⟨r, hr, rfl⟩ := List.mem_map.1 hc
    have := of_decide_eq_true (List.mem_filter.1 hr).2
    exact this 0 (by simp)
  · intro x hx
    obtain ⟨r, hr, rfl⟩ := List.mem_map.1 hx
    have hr := of_decide_eq_true (List.mem_filter.1 hr).2
    refine ⟨rfl, fun c hc => ?_⟩
    simp only [penguin, List.mem_cons, List.not_mem_nil, or_false] at hc
    rcases hc with rfl | rfl | rfl | rfl
    · exact hr 2 (by simp)
    · exact hr 3 (by simp)
    · exact hr 4 (by simp)
    · exact hr 5 (by simp)

/-- A file with too few columns is rejected. -/
theorem C128_columns (f : Csv α) : (f.width < 8 → chaetocnema f = .error .valueError) ∧ (f.width < 6 → penguins f = .error .valueError) := by
  constructor
  · intro h
    have : readCsv f (List.range 8) = .error .valueError := if_pos ⟨7, by simp, by omega⟩
    unfold chaetocnema
    rw [this]
    rfl
  · intro h
    have : readCsv f [0, 2, 3, 4, 5] = .error .valueError := if_pos ⟨5, by simp, by omega⟩
    unfold penguins
    rw [this]
    rfl

/-- Three penguins: one without sex (kept), one without measurements (left out). -/
def birds : Csv ℕ := { width := 7, rows := [[some 1, some 50, some 39, some 18, some 181, some 3750, some 9],
  [some 1, some 50, none, none, none, none, none], [some 2, some 51, some 40, some 19, some 190, some 3000, none]] }

example : 6 ≤ birds.width ∧ penguins birds = .ok ([[some 39, some 18, some 181, some 3750], [some 40, some 19, some 190, some 3000]], [some 1, some 2]) := ⟨by decide, by rfl⟩

/-- `load_chaetocnema` does not look for missing cells. -/
example : chaetocnema (⟨9, [[some 1, some 191, none, some 53, some 150, some 15, some 104, some 0, some 0]]⟩ : Csv ℕ) =
    .ok ([[some 191, none, some 53, some 150, some 15, some 104]], [some 0]) := by rfl

end Verif.Load
