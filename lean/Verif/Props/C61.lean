import Verif.Model.Cast

/-!
# C61: observation casting

* `C61_column`: a list of numbers and a one-axis array become the matrix with one observation per row, in a fit and in a query.
* `C61_matrix`, `C61_nested`: two-axis arrays, data frames, and lists of rows of equal length keep their shape and their rows.
* `C61_number`: a number as query is one observation with one coordinate.
* `C61_type_error`: other objects raise `TypeError`, in a fit also numbers and `None`.
* `C61_fit_partial`: what a fit stores always has two axes, for lists and arrays with at most two axes and data frames.
* `C61_series_refuted`: a `Series` stays one-dimensional in a fit, which then raises `IndexError` unless `nu_prior` was given, and is refused by every query.
* `C61_deep_refuted`: arrays with three and more axes are not refused with a `TypeError`.
-/

namespace Verif.Mix
variable {K : Type}

/-- The matrix with the given rows of `m` entries. -/
structure IsMatrix (a : Nd K) (m : ℕ) (rows : List (List K)) : Prop where
  shape : a.shape = [rows.length, m]
  rows : a.rows = rows

theorem chunks_flatten {m : ℕ} {rows : List (List K)} (h : ∀ r ∈ rows, r.length = m) :
    (List.range rows.length).map (fun i => (rows.flatten.drop (i * m)).take m) = rows := by
  induction rows with
  | nil => rfl
  | cons r rs ih =>
    have hr : r.length = m := h r (by simp)
    rw [List.length_cons, List.range_succ_eq_map, List.map_cons, List.map_map]
    have h1 : (List.drop (0 * m) (r :: rs).flatten).take m = r := by
      simp [← hr]
    rw [h1]
    congr 1
    refine Eq.trans (List.map_congr_left fun i _ => ?_) (ih fun r hr => h r (by simp [hr]))
    show List.take m (List.drop ((i + 1) * m) (r :: rs).flatten) = _
    rw [List.flatten_cons, Nat.succ_mul, Nat.add_comm, ← List.drop_drop, ← hr, List.drop_left]

theorem isMatrix_flatten {m : ℕ} {rows : List (List K)} (h : ∀ r ∈ rows, r.length = m) : IsMatrix ⟨[rows.length, m], rows.flatten⟩ m rows :=
  ⟨rfl, chunks_flatten h⟩

theorem isMatrix_column (l : List K) (s : List ℕ) : IsMatrix (Nd.column ⟨s, l⟩) 1 (l.map (fun x => [x])) := by
  have := isMatrix_flatten (m := 1) (rows := l.map (fun x => [x])) (by simp)
  have hf : (l.map (fun x => [x])).flatten = l := by
    induction l with
    | nil => rfl
    | cons x l ih => simpa using ih (isMatrix_flatten (by simp))
  rw [hf] at this
  simpa [Nd.column] using this

theorem toNds_nums (l : List K) : PyVal.toNds (l.map .num) = .ok (l.map (fun x => ⟨[], [x]⟩)) := by
  induction l with
  | nil => rfl
  | cons x l ih =>
    rw [List.map_cons, PyVal.toNds, PyVal.toNd]
    simp only []
    rw [ih]
    rfl

theorem toNd_nums (l : List K) : PyVal.toNd (.list (l.map .num)) = .ok ⟨[l.length], l⟩ := by
  rw [PyVal.toNd, toNds_nums]
  cases l with
  | nil => rfl
  | cons x l =>
    simp only [List.map_cons, List.all_cons, List.all_map, List.length_cons, List.length_map, List.map_map, List.flatten_cons]
    rw [if_pos]
    · have hf : (l.map (Nd.data ∘ fun x => (⟨[], [x]⟩ : Nd K))).flatten = l := by
        induction l with
        | nil => rfl
        | cons y l ih => simpa using ih
      rw [hf]
      rfl
    · simp [Function.comp_def]

theorem toNds_rows (rows : List (List K)) : PyVal.toNds (rows.map (fun r => .list (r.map .num))) = .ok (rows.map (fun r => ⟨[r.length], r⟩)) := by
  induction rows with
  | nil => rfl
  | cons r rows ih =>
    rw [List.map_cons, PyVal.toNds, toNd_nums]
    simp only []
    rw [ih]
    rfl

theorem toNd_rows {m : ℕ} {rows : List (List K)} (h : ∀ r ∈ rows, r.length = m) (hne : rows ≠ []) :
    PyVal.toNd (.list (rows.map (fun r => .list (r.map .num)))) = .ok ⟨[rows.length, m], rows.flatten⟩ := by
  rw [PyVal.toNd, toNds_rows]
  cases rows with
  | nil => exact absurd rfl hne
  | cons r rows =>
    have hr : r.length = m := h r (by simp)
    simp only [List.map_cons, List.length_cons, List.length_map]
    rw [if_pos]
    · simp [hr, List.map_map, Function.comp_def]
    · simp only [List.all_cons, beq_self_eq_true, Bool.true_and, List.all_eq_true, List.mem_map]
      rintro _ ⟨q, hq, rfl⟩
      simp [hr, h q (by simp [hq])]

/-- **Lists and one-axis arrays** become a column of observations, in a fit and in a query. -/
theorem C61_column (l : List K) (own : Nd K) (p q : Bool) :
    ∃ a, IsMatrix a 1 (l.map (fun x => [x])) ∧ castFit (.list (l.map .num)) = .ok (a, .numbers 1) ∧ castFit (.array ⟨[l.length], l⟩) = .ok (a, .numbers 1) ∧
      commonParams p q (.list (l.map .num)) = .ok (a, .numbers 1) ∧ commonParams p q (.array ⟨[l.length], l⟩) = .ok (a, .numbers 1) ∧
      castQuery own (.list (l.map .num)) = .ok a ∧ castQuery own (.array ⟨[l.length], l⟩) = .ok a := by
  have h1 : castFit (.list (l.map .num)) = .ok (Nd.column ⟨[l.length], l⟩, .numbers 1) := by
    rw [castFit, toNd_nums]
    rfl
  refine ⟨Nd.column ⟨[l.length], l⟩, isMatrix_column l _, h1, rfl, ?_, ?_, ?_, rfl⟩
  · unfold commonParams
    rw [h1]
    simp [Nd.ndim, Nd.column]
  · show (if _ then _ else _) = _
    simp [Nd.ndim, Nd.column]
  · rw [castQuery, toNd_nums]
    rfl

/-- **Two-axis arrays and data frames** keep their shape and rows. -/
theorem C61_matrix {m : ℕ} {rows : List (List K)} (h : ∀ r ∈ rows, r.length = m) (cols : List String) (hc : cols.length = m) (own : Nd K) (p q : Bool) :
    ∃ a, IsMatrix a m rows ∧ commonParams p q (.array ⟨[rows.length, m], rows.flatten⟩) = .ok (a, .numbers m) ∧
      commonParams p q (.frame cols rows) = .ok (a, .strings cols) ∧
      castQuery own (.array ⟨[rows.length, m], rows.flatten⟩) = .ok a ∧ castQuery own (.frame cols rows) = .ok a := by
  refine ⟨⟨[rows.length, m], rows.flatten⟩, isMatrix_flatten h, ?_, ?_, rfl, ?_⟩
  · simp [commonParams, castFit, fitArray, Nd.ndim]
  · simp [commonParams, castFit, frameNd, Nd.ndim, hc]
  · simp [castQuery, frameNd, hc]

/-- **Lists of rows** of equal length. -/
theorem C61_nested {m : ℕ} {rows : List (List K)} (h : ∀ r ∈ rows, r.length = m) (hne : rows ≠ []) (own : Nd K) (p q : Bool) :
    ∃ a, IsMatrix a m rows ∧ commonParams p q (.list (rows.map (fun r => .list (r.map .num)))) = .ok (a, .numbers m) ∧
      castQuery own (.list (rows.map (fun r => .list (r.map .num)))) = .ok a := by
  refine ⟨⟨[rows.length, m], rows.flatten⟩, isMatrix_flatten h, ?_, ?_⟩
  · rw [commonParams, castFit, toNd_rows h hne]
    simp [fitArray, Nd.ndim]
  · rw [castQuery, toNd_rows h hne]
    rfl

/-- **A number** as query. -/
theorem C61_number (x : K) (own : Nd K) : ∃ a, IsMatrix a 1 [[x]] ∧ castQuery own (.number x) = .ok a := ⟨_, ⟨rfl, rfl⟩, rfl⟩

/-- Without an argument the stored data are used. -/
theorem C61_own (own : Nd K) : castQuery own .none = .ok own := rfl

/-- **Anything else** raises `TypeError`. -/
theorem C61_type_error (x : K) (own : Nd K) (p q : Bool) : commonParams p q (.other : Obs K) = .error .typeError ∧
    commonParams p q (.none : Obs K) = .error .typeError ∧ commonParams p q (.number x) = .error .typeError ∧ castQuery own .other = .error .typeError :=
  ⟨rfl, rfl, rfl, rfl⟩

/-- The data a fit stores have two axes. What is missing: `Series`, and arrays with more than two axes. -/
theorem C61_fit_partial (p q : Bool) (o : Obs K) {a : Nd K} {names : Names} (h : commonParams p q o = .ok (a, names)) (hs : ∀ n l, o ≠ .series n l)
    (hd : a.ndim ≤ 2) : a.ndim = 2 := by
  have hf : ∀ b : Nd K, ∀ r, fitArray b = .ok r → r.1.ndim ≤ 2 → r.1.ndim = 2 := by
    intro b r hb hd
    unfold fitArray at hb
    split at hb
    · cases hb; rfl
    · next h1 =>
      cases hc : b.shape[1]? with
      | none => rw [hc] at hb; cases hb
      | some c =>
        rw [hc] at hb
        cases hb
        have := (List.getElem?_eq_some_iff.1 hc).1
        simp only [Nd.ndim] at *
        omega
  unfold commonParams at h
  cases hc : castFit o with
  | error e => rw [hc] at h; cases h
  | ok r =>
    obtain ⟨b, ns⟩ := r
    rw [hc] at h
    simp only [] at h
    split at h
    · cases h
    · split at h
      · cases h
      · cases h
        cases o with
        | none => cases hc
        | number x => cases hc
        | other => cases hc
        | series n l => exact absurd rfl (hs n l)
        | frame cols rows => cases hc; rfl
        | array b => exact hf b _ hc hd
        | list l =>
          rw [castFit] at hc
          cases hl : PyVal.toNd (.list l) with
          | error e => rw [hl] at hc; cases hc
          | ok b =>
            rw [hl] at hc
            exact hf b _ hc hd

/-- **Refuted for a `Series`**, whatever its contents: the fit raises `IndexError` unless `nu_prior` was given, then the data have one axis; a query
raises `TypeError`. -/
theorem C61_series_refuted (name : Option String) (l : List K) (own : Nd K) (p : Bool) :
    commonParams p false (.series name l) = .error .indexError ∧ (∃ ns, commonParams p true (.series name l) = .ok (⟨[l.length], l⟩, ns)) ∧
    castQuery own (.series name l) = .error .typeError := by
  refine ⟨?_, ⟨match name with | none => .numbers 1 | some s => .strings [s], ?_⟩, rfl⟩
  · simp [commonParams, castFit, Nd.ndim]
  · simp [commonParams, castFit, Nd.ndim]
    rfl

/-- **Refuted for more than two axes**: a query takes the array as it is; a fit raises `ValueError`, or with `psi_prior` takes it too. An array without
axes raises `IndexError` in a fit. -/
theorem C61_deep_refuted (n c e : ℕ) (r : List ℕ) (d : List K) (x : K) (own : Nd K) (q : Bool) :
    castQuery own (.array ⟨n :: c :: e :: r, d⟩) = .ok ⟨n :: c :: e :: r, d⟩ ∧
    commonParams false q (.array ⟨n :: c :: e :: r, d⟩) = .error .valueError ∧
    commonParams true q (.array ⟨n :: c :: e :: r, d⟩) = .ok (⟨n :: c :: e :: r, d⟩, .numbers c) ∧
    commonParams true q (.array ⟨[], [x]⟩) = .error .indexError := by
  refine ⟨?_, ?_, ?_, rfl⟩
  · simp [castQuery, Nd.ndim]
  · simp [commonParams, castFit, fitArray, Nd.ndim]
  · simp [commonParams, castFit, fitArray, Nd.ndim]

/-! Literal cases: a list, a list of rows, a ragged list, and the empty list (no observations with one coordinate). -/
example : commonParams false false (.list [.num 1, .num 2, .num (5 : ℚ)]) = .ok (⟨[3, 1], [1, 2, 5]⟩, .numbers 1) := by decide +kernel
example : commonParams false false (.list [.list [.num 1, .num 2], .list [.num 3, .num (5 : ℚ)]]) = .ok (⟨[2, 2], [1, 2, 3, 5]⟩, .numbers 2) := by decide +kernel
example : commonParams false false (.list [.list [.num 1, .num 2], .list [.num (5 : ℚ)]]) = .error .valueError := by decide +kernel
example : commonParams false false (.list ([] : List (PyVal ℚ))) = .ok (⟨[0, 1], []⟩, .numbers 1) := by decide +kernel
end Verif.Mix
