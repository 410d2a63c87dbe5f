import Verif.Model.Float
import Verif.Lemmas.Argmax
import Mathlib.Algebra.BigOperators.Group.List.Lemmas
import Mathlib.Algebra.Order.BigOperators.Group.List

/-! # Facts about numbers with special values -/

set_option linter.unusedSectionVars false

namespace Verif.Fl
variable {K : Type} [Field K] [LinearOrder K] [IsStrictOrderedRing K]

/-- Minus infinity for `⊥`. -/
def ofBot : WithBot K → Fl K
  | none => ninf
  | some x => fin x

@[simp] theorem ofBot_bot : ofBot (⊥ : WithBot K) = ninf := rfl
@[simp] theorem ofBot_coe (x : K) : ofBot (x : WithBot K) = fin x := rfl

theorem ofBot_inj {x y : WithBot K} (h : ofBot x = ofBot y) : x = y := by
  induction x using WithBot.recBotCoe <;> induction y using WithBot.recBotCoe
  · rfl
  · exact absurd h (by intro h; cases h)
  · exact absurd h (by intro h; cases h)
  · simp only [ofBot_coe] at h; cases h; rfl

theorem hadd (x y : Fl K) : x + y = Fl.add x y := rfl

@[simp] theorem fin_add (x y : K) : (fin x + fin y : Fl K) = fin (x + y) := rfl
@[simp] theorem fin_sub (x y : K) : (fin x - fin y : Fl K) = fin (x - y) := by
  show fin (x + -y) = _
  rw [sub_eq_add_neg]
@[simp] theorem ninf_sub_fin (y : K) : (ninf - fin y : Fl K) = ninf := rfl
@[simp] theorem ninf_add_fin (y : K) : (ninf + fin y : Fl K) = ninf := rfl
@[simp] theorem fin_add_ninf (y : K) : (fin y + ninf : Fl K) = ninf := rfl
@[simp] theorem ninf_add_ninf : (ninf + ninf : Fl K) = ninf := rfl
@[simp] theorem nan_add (x : Fl K) : nan + x = nan := by cases x <;> rfl
@[simp] theorem add_nan (x : Fl K) : x + nan = nan := by cases x <;> rfl
@[simp] theorem nan_sub (x : Fl K) : nan - x = nan := by cases x <;> rfl
@[simp] theorem sub_nan (x : Fl K) : x - nan = nan := by cases x <;> rfl

theorem ofBot_add (x y : WithBot K) : ofBot x + ofBot y = ofBot (x + y) := by
  induction x using WithBot.recBotCoe <;> induction y using WithBot.recBotCoe <;> rfl

theorem foldl_add_fin (l : List K) (a : K) : (l.map fin).foldl add (fin a) = fin (a + l.sum) := by
  induction l generalizing a with
  | nil => simp
  | cons x l ih =>
    rw [List.map_cons, List.foldl_cons]
    show (l.map fin).foldl add (fin (a + x)) = _
    rw [ih, List.sum_cons, add_assoc]

theorem sum_fin (l : List K) : sum (l.map fin) = fin l.sum := by
  unfold sum
  rw [foldl_add_fin, zero_add]

theorem foldl_add_nan (l : List (Fl K)) : l.foldl add nan = nan := by
  induction l with
  | nil => rfl
  | cons x l ih => rw [List.foldl_cons]; cases x <;> exact ih

theorem sum_nan {l : List (Fl K)} (h : nan ∈ l) : sum l = nan := by
  have : ∀ a : Fl K, l.foldl add a = nan := by
    induction l with
    | nil => cases h
    | cons x l ih =>
      intro a
      rw [List.foldl_cons]
      rcases List.mem_cons.1 h with hx | hx
      · rw [← hx]
        have : add a nan = nan := by cases a <;> rfl
        rw [this]; exact foldl_add_nan l
      · exact ih hx _
  exact this _

theorem lt_ofBot (x y : WithBot K) : lt (ofBot x) (ofBot y) = decide (x < y) := by
  induction x using WithBot.recBotCoe <;> induction y using WithBot.recBotCoe
  · simp [lt]
  · simp [lt]
  · simp [lt]
  · simp [lt]

theorem max_ofBot (x y : WithBot K) : max (ofBot x) (ofBot y) = ofBot (Max.max x y) := by
  have h : max (ofBot x) (ofBot y) = if lt (ofBot x) (ofBot y) then ofBot y else ofBot x := by
    induction x using WithBot.recBotCoe <;> induction y using WithBot.recBotCoe <;> rfl
  rw [h, lt_ofBot]
  by_cases hxy : x < y
  · simp [hxy, hxy.le]
  · simp [hxy, not_lt.1 hxy]

theorem foldl_max_ofBot (l : List (WithBot K)) (a : WithBot K) : (l.map ofBot).foldl max (ofBot a) = ofBot (l.foldl Max.max a) := by
  induction l generalizing a with
  | nil => rfl
  | cons x l ih => rw [List.map_cons, List.foldl_cons, max_ofBot, ih]; rfl

theorem maximum_ofBot (l : List (WithBot K)) : maximum (l.map ofBot) = ofBot (l.foldl Max.max ⊥) := foldl_max_ofBot l ⊥

theorem foldl_max_nan (l : List (Fl K)) : l.foldl max nan = nan := by
  induction l with
  | nil => rfl
  | cons x l ih => rw [List.foldl_cons]; cases x <;> exact ih

theorem maximum_nan {l : List (Fl K)} (h : nan ∈ l) : maximum l = nan := by
  have : ∀ a : Fl K, l.foldl max a = nan := by
    induction l with
    | nil => cases h
    | cons x l ih =>
      intro a
      rw [List.foldl_cons]
      rcases List.mem_cons.1 h with hx | hx
      · rw [← hx]
        have : max a nan = nan := by cases a <;> rfl
        rw [this]; exact foldl_max_nan l
      · exact ih hx _
  exact this _

theorem numbers_fin (l : List K) : numbers (l.map fin) = some l := by
  induction l with
  | nil => rfl
  | cons x l ih => rw [List.map_cons, numbers, ih]; rfl

theorem numbers_some {l : List (Fl K)} {r : List K} (h : numbers l = some r) : l = r.map fin := by
  induction l generalizing r with
  | nil => cases h; rfl
  | cons x l ih =>
    cases x with
    | fin x =>
      rw [numbers, Option.map_eq_some_iff] at h
      obtain ⟨r', h1, rfl⟩ := h
      rw [ih h1]; rfl
    | nan => cases h
    | ninf => cases h
    | pinf => cases h

theorem numbers_nan {l : List (Fl K)} (h : nan ∈ l) : numbers l = none := by
  cases hn : numbers l with
  | none => rfl
  | some r =>
    rw [numbers_some hn] at h
    obtain ⟨_, _, h⟩ := List.mem_map.1 h
    cases h

theorem matrix_fin (q : List (List K)) : matrix (q.map (fun r => r.map fin)) = some q := by
  induction q with
  | nil => rfl
  | cons r q ih => rw [List.map_cons, matrix, numbers_fin, ih]

theorem matrix_some {q : List (List (Fl K))} {q' : List (List K)} (h : matrix q = some q') : q = q'.map (fun r => r.map fin) := by
  induction q generalizing q' with
  | nil => cases h; rfl
  | cons r q ih =>
    rw [matrix] at h
    cases h1 : numbers r with
    | none => rw [h1] at h; cases h
    | some r' =>
      cases h2 : matrix q with
      | none => rw [h1, h2] at h; cases h
      | some q'' =>
        rw [h1, h2] at h
        cases h
        rw [numbers_some h1, ih h2]; rfl

/-- `np.argmax` on numbers and minus infinities. -/
theorem argmaxFrom_ofBot (xs : List (WithBot K)) (b : WithBot K) (bi i : ℕ) :
    argmaxFrom (ofBot b) bi i (xs.map ofBot) = Py.argmaxFrom b bi i xs := by
  induction xs generalizing b bi i with
  | nil => cases b <;> rfl
  | cons x xs ih =>
    have h : argmaxFrom (ofBot b) bi i (ofBot x :: xs.map ofBot) = if lt (ofBot b) (ofBot x) then argmaxFrom (ofBot x) i (i + 1) (xs.map ofBot)
        else argmaxFrom (ofBot b) bi (i + 1) (xs.map ofBot) := by
      induction b using WithBot.recBotCoe <;> induction x using WithBot.recBotCoe <;> rfl
    rw [List.map_cons, h, lt_ofBot, Py.argmaxFrom, ih, ih]
    by_cases hbx : b < x <;> simp [hbx]

theorem argmax_ofBot (l : List (WithBot K)) : argmax (l.map ofBot) = Py.argmax l := by
  cases l with
  | nil => rfl
  | cons x xs =>
    rw [List.map_cons, argmax, argmaxFrom_ofBot]; rfl

theorem argmax_fin (l : List K) : argmax (l.map fin) = Py.argmax (l.map (fun x : K => (x : WithBot K))) := by
  rw [← argmax_ofBot, List.map_map]; rfl
end Verif.Fl
