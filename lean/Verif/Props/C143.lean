import Verif.Props.C47
import Verif.Lemmas.WeightTotals
import Verif.Lemmas.GibbsDemo

/-!
# C143: gibbs_eap_density by component

For every class of the library and every history of `fit_gibbs` calls on a new object: `gibbs_eap_density(y, component=j)` returns exactly when every averaged state
stores more than `j` weights, and is then the mean of the weight of component `j` times its density (`C143_value`); otherwise it raises, `IndexError` if the first state
with too few weights holds an atom for `j` and `KeyError` if not (`C143_raises`).  When all averaged states store the same number of weights, the densities of the
components add up to `gibbs_eap_density(y)` (`C143_add`), so for `DirichletDistribution` and `EqualWeighting` there are always `n` components that add up
(`C143_dirichlet`, `C143_equal`).  In general the components for which the call returns fall short by the mean of what the other components contribute
(`C143_gap`), and the sum is right if and only if all averaged states store the same number of weights when weights and densities are positive (`C143_iff`).  In a
Dirichlet process mixture the sum is wrong (`C143_refuted`).
-/

set_option linter.unusedSectionVars false

namespace Verif

namespace DirDist
variable {K : Type} [Field K] [LinearOrder K] [IsStrictOrderedRing K] {ω : Oracle K}

/-- `n` concentration parameters, and `n` weights or none. -/
def Sized (n : ℕ) (s : DirDist K) : Prop := s.alpha.length = n ∧ (s.w = [] ∨ s.w.length = n)

theorem dirichlet_sized {σ : Type} {I : σ → Prop} (hω : ω.Legal) (l : List K) : KeepsR ω I (M.dirichlet l : M K σ (List K)) (fun w => w.length = l.length) := by
  intro s hs
  unfold M.dirichlet
  split
  · rename_i h
    split at h
    · cases h
    · cases h
      exact ⟨hs, hω.dirichlet_length _ _⟩
  · rename_i h; split at h <;> cases h; exact hs

theorem draw_sized (hω : ω.Legal) (n : ℕ) : KeepsR ω (Sized n) (draw : M K (DirDist K) _) (fun _ => True) := by
  unfold draw
  refine KeepsR.bind KeepsR.self fun s hs => KeepsR.ite (fun _ => ?_) fun _ => ?_
  · refine KeepsR.bind (KeepsR.lift _) fun _ _ => KeepsR.ite (fun _ => KeepsR.raise _) fun _ => KeepsR.bind (KeepsR.lift _) fun _ _ => ?_
    refine KeepsR.bind (dirichlet_sized hω _) fun w hw => KeepsR.assign fun t ht => ⟨ht.1, Or.inr ?_⟩
    rw [hw, posterior, List.length_mapIdx, hs.1]
  · exact KeepsR.bind (dirichlet_sized hω _) fun w hw => KeepsR.assign fun t ht => ⟨ht.1, Or.inr (hw.trans hs.1)⟩

theorem random_sized (hω : ω.Legal) (n : ℕ) (k : PySize) : KeepsR ω (Sized n) (random k : M K (DirDist K) _) (fun _ => True) := by
  unfold random
  refine KeepsR.bind (draw_sized hω n) fun _ _ => ?_
  repeat' keeps_step

theorem sized_calls (hω : ω.Legal) (n : ℕ) : Mix.CallsKeep (cls : WeightClass K) ω (Sized n) := by
  have h : (core : WeightCore K).Stable ω (Sized n) :=
    { setD := fun _ _ h => h
      random := fun k => (random_sized hω n k).keeps
      complete := fun k => by
        refine (KeepsR.bind (R := fun _ => True) (R' := fun _ => True) ?_ fun _ _ => KeepsR.pure trivial).keeps
        unfold complete
        keeps_step; keeps_step; keeps_step
        · exact KeepsR.bind (random_sized hω n _) fun _ _ => KeepsR.pure trivial
        · repeat' keeps_step }
  exact ⟨h, fun f x => tail_keeps h x f⟩
end DirDist

namespace Equal
variable {K : Type} [Field K] [LinearOrder K] [IsStrictOrderedRing K] {ω : Oracle K}

/-- The number of components, and as many weights or none. -/
def Sized (n : ℕ) (s : Equal K) : Prop := s.n = n ∧ (s.w = [] ∨ s.w.length = n)

theorem uniform_length {n : ℤ} {w : List K} (h : uniformWeights n = .ok w) : w.length = n.toNat := by
  unfold uniformWeights at h
  split at h
  · cases h
  · unfold Py.repeatScalar at h
    split at h
    · cases h
    · cases h; simp

theorem random_sized (n : ℕ) (k : PySize) : KeepsR ω (Sized n) (random k : M K (Equal K) _) (fun _ => True) := by
  unfold random
  refine KeepsR.bind KeepsR.self fun s hs => KeepsR.bind (KeepsR.lift _) fun w hw => KeepsR.bind (R := fun _ => True) (KeepsR.assign fun t ht => ⟨ht.1, Or.inr ?_⟩) fun _ _ => ?_
  · have := uniform_length hw
    rw [hs.1] at this
    simpa using this
  · repeat' keeps_step

theorem sized_calls (n : ℕ) : Mix.CallsKeep (cls : WeightClass K) ω (Sized n) := by
  have h : (core : WeightCore K).Stable ω (Sized n) :=
    { setD := fun _ _ h => h
      random := fun k => (random_sized n k).keeps
      complete := fun k => (KeepsR.bind (R' := fun _ => True) (random_sized n k) fun _ _ => KeepsR.pure trivial).keeps }
  exact ⟨h, fun f x => tail_keeps h x f⟩
end Equal

namespace Mix
open GM
variable {K : Type} [Field K] [LinearOrder K] [IsStrictOrderedRing K] {C : WeightClass K} {m : ℕ} {Atom : Type} {ω : Oracle K}

/-- The share of component `j` in a state: its weight times its density, nothing if it has no weight. -/
def share (W : World K m Atom) (dim : Dim) (j : ℕ) (x : Fin m → K) (p : RunParams K Atom) : K :=
  match p.theta.lookup j, p.w[j]? with
  | some a, some wj => wj * W.pdf dim x a
  | _, _ => 0

/-- The mean share of component `j`. -/
def meanShare (W : World K m Atom) (dim : Dim) (ps : List (RunParams K Atom)) (j : ℕ) (x : Fin m → K) : K :=
  (ps.map (share W dim j x)).sum / (ps.length : K)

theorem share_eq (W : World K m Atom) (dim : Dim) (j : ℕ) (x : Fin m → K) (p : RunParams K Atom) : share W dim j x p = weighted (W.pdf dim) p.w p.theta x j := rfl

variable (W : World K m Atom)

theorem stateDensities_component (xs : List (Fin m → K)) {dim : Dim} (hd : dim ≠ .other) (j : ℕ) (ps : List (RunParams K Atom)) (h : ∀ p ∈ ps, Evaluable p)
    (hj : ∀ p ∈ ps, j < p.w.length) : stateDensities W xs dim (some j) ps = .ok (ps.map (fun p => xs.map (fun x => share W dim j x p))) := by
  induction ps with
  | nil => rfl
  | cons p ps ih =>
    unfold stateDensities
    rw [C48_component W.pdf xs (h p (by simp)) hd (hj p (by simp)), ih (fun q hq => h q (by simp [hq])) fun q hq => hj q (by simp [hq])]
    rfl

theorem stateDensities_short (xs : List (Fin m → K)) {dim : Dim} (hd : dim ≠ .other) (j : ℕ) (l r : List (RunParams K Atom)) (p : RunParams K Atom)
    (h : ∀ q ∈ l, Evaluable q) (hl : ∀ q ∈ l, j < q.w.length) (hp : p.w.length ≤ j) :
    stateDensities W xs dim (some j) (l ++ p :: r) = .error (if (p.theta.lookup j).isSome then .indexError else .keyError) := by
  induction l with
  | nil =>
    simp only [List.nil_append]
    unfold stateDensities mixtureDensity
    rw [if_neg hd]
    simp only []
    rw [componentRows]
    cases p.theta.lookup j with
    | none => rfl
    | some a => rw [List.getElem?_eq_none hp]; rfl
  | cons q l ih =>
    simp only [List.cons_append]
    unfold stateDensities
    rw [C48_component W.pdf xs (h q (by simp)) hd (hl q (by simp)), ih (fun q hq => h q (by simp [hq])) fun q hq => hl q (by simp [hq])]

theorem colMeans_share (xs : List (Fin m → K)) (ps : List (RunParams K Atom)) (f : (Fin m → K) → RunParams K Atom → K) :
    colMeans xs.length (ps.map (fun p => xs.map (fun x => f x p))) = xs.map (fun x => (ps.map (f x)).sum / (ps.length : K)) := by
  unfold colMeans
  have : ∀ (ps : List (RunParams K Atom)), colSums xs.length (ps.map (fun p => xs.map (fun x => f x p))) = xs.map (fun x => (ps.map (f x)).sum) := by
    intro ps
    unfold colSums
    refine List.ext_getElem? fun i => ?_
    rcases Nat.lt_or_ge i xs.length with hi | hi
    · simp only [List.getElem?_map, List.getElem?_range hi, Option.map_some, List.getElem?_eq_getElem hi, List.map_map]
      congr 2
      refine List.map_congr_left fun j _ => ?_
      simp [hi]
    · rw [List.getElem?_eq_none (by simpa using hi), List.getElem?_eq_none (by simpa using hi)]
  rw [this, List.map_map, List.length_map]
  rfl

theorem saved_complete (hC : Library C) (s : GM C m Atom × ℕ) (hs : s.1.saved = []) (ops : List (FitArgs K m)) : ∀ p ∈ (run W ω s ops).1.saved, Complete p := by
  obtain ⟨I, hI⟩ := hC.tidy ω
  exact run_saved W hI (fun t ht => ⟨evaluable_step t ht, by obtain ⟨as, ns, h⟩ := ht; exact h.ne⟩) s hs ops

/-- **The density of a component** when all averaged states store a weight for it. -/
theorem C143_value (hC : Library C) (s : GM C m Atom × ℕ) (hs : s.1.saved = []) (ops : List (FitArgs K m)) (hf : (run W ω s ops).1.gibbsFitted = true)
    (xs : List (Fin m → K)) {dim : Dim} (hd : dim ≠ .other) (per : Option ℤ) (j : ℕ) (hj : ∀ p ∈ usedStates (run W ω s ops).1.saved per, j < p.w.length) :
    eapDensity W (run W ω s ops).1 (some (.rows xs)) dim (some j) per =
      .ok (xs.map (meanShare W dim (usedStates (run W ω s ops).1.saved per) j)) := by
  unfold eapDensity
  rw [if_neg (by rw [hf]; simp)]
  show (match stateDensities W xs dim (some j) (usedStates (run W ω s ops).1.saved per) with
    | .error e => _
    | .ok rows => _) = _
  rw [stateDensities_component W xs hd j _ (fun p hp => (saved_complete W hC s hs ops p (mem_usedStates (per := per) hp)).1) hj]
  simp only [if_neg hd]
  rw [colMeans_share]
  rfl

/-- **The call raises** when an averaged state stores no weight for the component; the first such state decides which exception. -/
theorem C143_raises (hC : Library C) (s : GM C m Atom × ℕ) (hs : s.1.saved = []) (ops : List (FitArgs K m)) (hf : (run W ω s ops).1.gibbsFitted = true)
    (xs : List (Fin m → K)) {dim : Dim} (hd : dim ≠ .other) (per : Option ℤ) (j : ℕ) {l r : List (RunParams K Atom)} {p : RunParams K Atom}
    (hu : usedStates (run W ω s ops).1.saved per = l ++ p :: r) (hl : ∀ q ∈ l, j < q.w.length) (hp : p.w.length ≤ j) :
    eapDensity W (run W ω s ops).1 (some (.rows xs)) dim (some j) per = .error (if (p.theta.lookup j).isSome then .indexError else .keyError) := by
  unfold eapDensity
  rw [if_neg (by rw [hf]; simp)]
  show (match stateDensities W xs dim (some j) (usedStates (run W ω s ops).1.saved per) with
    | .error e => _
    | .ok rows => _) = _
  have h : ∀ q ∈ l, Evaluable q := fun q hq => (saved_complete W hC s hs ops q (mem_usedStates (per := per) (by rw [hu]; simp [hq]))).1
  rw [hu, stateDensities_short W xs hd j l r p h hl hp]

/-- The first element with a property. -/
theorem split_first {α : Type} (P : α → Prop) [DecidablePred P] : ∀ l : List α, (∃ a ∈ l, ¬ P a) → ∃ l₁ a l₂, l = l₁ ++ a :: l₂ ∧ (∀ b ∈ l₁, P b) ∧ ¬ P a
  | [], h => by simp at h
  | a :: l, h => by
    by_cases ha : P a
    · obtain ⟨b, hb, hn⟩ := h
      rcases List.mem_cons.1 hb with rfl | hb
      · exact absurd ha hn
      · obtain ⟨l₁, c, l₂, e, h1, h2⟩ := split_first P l ⟨b, hb, hn⟩
        refine ⟨a :: l₁, c, l₂, by rw [e]; rfl, fun b hb => ?_, h2⟩
        rcases List.mem_cons.1 hb with rfl | hb
        · exact ha
        · exact h1 b hb
    · exact ⟨[], a, l, rfl, by simp, ha⟩

/-- **When the call returns.** -/
theorem C143_returns (hC : Library C) (s : GM C m Atom × ℕ) (hs : s.1.saved = []) (ops : List (FitArgs K m)) (hf : (run W ω s ops).1.gibbsFitted = true)
    (xs : List (Fin m → K)) {dim : Dim} (hd : dim ≠ .other) (per : Option ℤ) (j : ℕ) :
    (∃ r, eapDensity W (run W ω s ops).1 (some (.rows xs)) dim (some j) per = .ok r) ↔ ∀ p ∈ usedStates (run W ω s ops).1.saved per, j < p.w.length := by
  refine ⟨fun ⟨r, hr⟩ => ?_, fun h => ⟨_, C143_value W hC s hs ops hf xs hd per j h⟩⟩
  by_contra hn
  push Not at hn
  obtain ⟨l₁, p, l₂, e, h1, h2⟩ := split_first (fun p : RunParams K Atom => j < p.w.length) _ (by obtain ⟨p, hp, h⟩ := hn; exact ⟨p, hp, not_lt.2 h⟩)
  rw [C143_raises W hC s hs ops hf xs hd per j e h1 (not_lt.1 h2)] at hr
  cases hr

/-! ## Adding up -/

theorem sum_swap (n : ℕ) (f : ℕ → RunParams K Atom → K) (ps : List (RunParams K Atom)) :
    ((List.range n).map fun j => (ps.map (f j)).sum).sum = (ps.map fun p => ((List.range n).map fun j => f j p).sum).sum := by
  induction ps with
  | nil => simp
  | cons p ps ih =>
    simp only [List.map_cons, List.sum_cons]
    rw [← ih, ← List.sum_map_add]

theorem shares_mean (dim : Dim) (n : ℕ) (ps : List (RunParams K Atom)) (x : Fin m → K) :
    ((List.range n).map fun j => meanShare W dim ps j x).sum = (ps.map fun p => ((List.range n).map fun j => share W dim j x p).sum).sum / (ps.length : K) := by
  rw [← sum_swap]
  unfold meanShare
  simp only [div_eq_mul_inv]
  rw [List.sum_map_mul_right]

/-- What the components from number `k` on contribute. -/
def restShare (W : World K m Atom) (dim : Dim) (k : ℕ) (x : Fin m → K) (p : RunParams K Atom) : K :=
  ((List.range (p.w.length - k)).map fun i => share W dim (k + i) x p).sum

theorem share_split (dim : Dim) {k : ℕ} (x : Fin m → K) (p : RunParams K Atom) (hk : k ≤ p.w.length) :
    stateDensity W dim x p = ((List.range k).map fun j => share W dim j x p).sum + restShare W dim k x p := by
  unfold stateDensity restShare
  conv_lhs => rw [show p.w.length = k + (p.w.length - k) from by omega, List.range_add, List.map_append, List.sum_append, List.map_map]
  rfl

/-- **The gap**: with `k` weights in every averaged state at least, the first `k` components and the mean of the rest make the whole density. -/
theorem C143_gap (dim : Dim) (ps : List (RunParams K Atom)) {k : ℕ} (hk : ∀ p ∈ ps, k ≤ p.w.length) (x : Fin m → K) :
    meanDensity W dim ps x = ((List.range k).map fun j => meanShare W dim ps j x).sum + (ps.map (restShare W dim k x)).sum / (ps.length : K) := by
  rw [shares_mean, ← add_div, ← List.sum_map_add]
  unfold meanDensity
  congr 2
  exact List.map_congr_left fun p hp => share_split W dim x p (hk p hp)

/-- **The components add up** when all averaged states store the same number of weights: `parts j` is what the call with `component=j` returns. -/
theorem C143_add (hC : Library C) (s : GM C m Atom × ℕ) (hs : s.1.saved = []) (ops : List (FitArgs K m)) (hf : (run W ω s ops).1.gibbsFitted = true)
    (xs : List (Fin m → K)) {dim : Dim} (hd : dim ≠ .other) (per : Option ℤ) {n : ℕ} (hn : ∀ p ∈ usedStates (run W ω s ops).1.saved per, p.w.length = n) :
    ∃ (total : List K) (parts : ℕ → List K), eapDensity W (run W ω s ops).1 (some (.rows xs)) dim none per = .ok total ∧
      (∀ j < n, eapDensity W (run W ω s ops).1 (some (.rows xs)) dim (some j) per = .ok (parts j)) ∧
      ∀ i < xs.length, total[i]? = some ((List.range n).map fun j => ((parts j)[i]?).getD 0).sum := by
  refine ⟨_, fun j => xs.map (meanShare W dim (usedStates (run W ω s ops).1.saved per) j), eap_eq W _ hf (saved_complete W hC s hs ops) _ rfl hd per,
    fun j hj => C143_value W hC s hs ops hf xs hd per j fun p hp => by rw [hn p hp]; exact hj, fun i hi => ?_⟩
  rw [List.getElem?_map, List.getElem?_eq_getElem hi, Option.map_some, C143_gap W dim _ (fun p hp => (hn p hp).ge) (xs[i])]
  have h0 : (List.map (restShare W dim n xs[i]) (usedStates (run W ω s ops).1.saved per)).sum = 0 := by
    rw [List.map_congr_left (g := fun _ => (0 : K)) fun p hp => by unfold restShare; rw [hn p hp, Nat.sub_self]; rfl]
    simp
  rw [h0, zero_div, add_zero]
  congr 2
  refine List.map_congr_left fun j _ => ?_
  rw [List.getElem?_map, List.getElem?_eq_getElem hi]
  rfl

theorem finite_lengths {J : C.State → Prop} {n : ℕ} (hC : Library C) (hJ : CallsKeep C ω J) (hw : ∀ t, J t → C.getW t = [] ∨ (C.getW t).length = n) (s : GM C m Atom × ℕ)
    (h1 : s.1.theta = []) (h2 : s.1.saved = []) (h3 : s.1.mapParams = none) (h0 : J s.1.wst.1) (ops : List (FitArgs K m)) :
    ∀ p ∈ (run W ω s ops).1.saved, p.w.length = n := fun p hp =>
  (((run_kept W (P := fun _ => True) (Q := fun w => w = [] ∨ w.length = n) (fun _ _ => trivial) hJ hw ops s (Kept.new h1 h2 h3 h0)).saved p hp).2).resolve_left
    (saved_complete W hC s h2 ops p hp).2

/-- For `DirichletDistribution` with `n` parameters: exactly the components below `n` can be asked for, and they add up. -/
theorem C143_dirichlet (hω : ω.Legal) (s : GM (DirDist.cls : WeightClass K) m Atom × ℕ) (h1 : s.1.theta = []) (h2 : s.1.saved = []) (h3 : s.1.mapParams = none)
    {n : ℕ} (ha : s.1.wst.1.alpha.length = n) (hw : s.1.wst.1.w = []) (ops : List (FitArgs K m)) (hf : (run W ω s ops).1.gibbsFitted = true) (xs : List (Fin m → K))
    {dim : Dim} (hd : dim ≠ .other) (per : Option ℤ) (hne : usedStates (run W ω s ops).1.saved per ≠ []) :
    (∀ j, (∃ r, eapDensity W (run W ω s ops).1 (some (.rows xs)) dim (some j) per = .ok r) ↔ j < n) ∧
    ∃ (total : List K) (parts : ℕ → List K), eapDensity W (run W ω s ops).1 (some (.rows xs)) dim none per = .ok total ∧
      (∀ j < n, eapDensity W (run W ω s ops).1 (some (.rows xs)) dim (some j) per = .ok (parts j)) ∧
      ∀ i < xs.length, total[i]? = some ((List.range n).map fun j => ((parts j)[i]?).getD 0).sum := by
  have hl := finite_lengths W (n := n) .dirDist (DirDist.sized_calls hω n) (fun t h => h.2) s h1 h2 h3 ⟨ha, Or.inl hw⟩ ops
  have hu : ∀ p ∈ usedStates (run W ω s ops).1.saved per, p.w.length = n := fun p hp => hl p (mem_usedStates hp)
  refine ⟨fun j => ?_, C143_add W .dirDist s h2 ops hf xs hd per hu⟩
  rw [C143_returns W .dirDist s h2 ops hf xs hd per j]
  obtain ⟨p, hp⟩ := List.exists_mem_of_ne_nil _ hne
  exact ⟨fun h => by rw [← hu p hp]; exact h p hp, fun h q hq => by rw [hu q hq]; exact h⟩

/-- The same for `EqualWeighting(n)`. -/
theorem C143_equal (s : GM (Equal.cls : WeightClass K) m Atom × ℕ) (h1 : s.1.theta = []) (h2 : s.1.saved = []) (h3 : s.1.mapParams = none)
    {n : ℕ} (ha : s.1.wst.1.n = n) (hw : s.1.wst.1.w = []) (ops : List (FitArgs K m)) (hf : (run W ω s ops).1.gibbsFitted = true) (xs : List (Fin m → K))
    {dim : Dim} (hd : dim ≠ .other) (per : Option ℤ) (hne : usedStates (run W ω s ops).1.saved per ≠ []) :
    (∀ j, (∃ r, eapDensity W (run W ω s ops).1 (some (.rows xs)) dim (some j) per = .ok r) ↔ j < n) ∧
    ∃ (total : List K) (parts : ℕ → List K), eapDensity W (run W ω s ops).1 (some (.rows xs)) dim none per = .ok total ∧
      (∀ j < n, eapDensity W (run W ω s ops).1 (some (.rows xs)) dim (some j) per = .ok (parts j)) ∧
      ∀ i < xs.length, total[i]? = some ((List.range n).map fun j => ((parts j)[i]?).getD 0).sum := by
  have hl := finite_lengths W (ω := ω) (n := n) .equal (Equal.sized_calls n) (fun t h => h.2) s h1 h2 h3 ⟨ha, Or.inl hw⟩ ops
  have hu : ∀ p ∈ usedStates (run W ω s ops).1.saved per, p.w.length = n := fun p hp => hl p (mem_usedStates hp)
  refine ⟨fun j => ?_, C143_add W .equal s h2 ops hf xs hd per hu⟩
  rw [C143_returns W .equal s h2 ops hf xs hd per j]
  obtain ⟨p, hp⟩ := List.exists_mem_of_ne_nil _ hne
  exact ⟨fun h => by rw [← hu p hp]; exact h p hp, fun h q hq => by rw [hu q hq]; exact h⟩

/-- **When the sum is right**: with positive weights and densities, the components for which the call returns (those below the smallest number of stored weights, `k`) add
up to the density at a point if and only if all averaged states store `k` weights. -/
theorem C143_iff (dim : Dim) (ps : List (RunParams K Atom)) (he : ∀ p ∈ ps, Evaluable p) (hw : ∀ p ∈ ps, ∀ w ∈ p.w, 0 < w) (x : Fin m → K) (hx : ∀ a, 0 < W.pdf dim x a)
    {k : ℕ} (hk : ∀ p ∈ ps, k ≤ p.w.length) :
    ((List.range k).map fun j => meanShare W dim ps j x).sum ≤ meanDensity W dim ps x ∧
    (((List.range k).map fun j => meanShare W dim ps j x).sum = meanDensity W dim ps x ↔ ∀ p ∈ ps, p.w.length = k) := by
  have hs : ∀ p ∈ ps, ∀ j < p.w.length, 0 < share W dim j x p := by
    intro p hp j hj
    obtain ⟨a, ha⟩ := Option.isSome_iff_exists.1 (he p hp j hj)
    unfold share
    rw [ha, List.getElem?_eq_getElem hj]
    exact mul_pos (hw p hp _ (List.getElem_mem hj)) (hx a)
  have hr : ∀ p ∈ ps, 0 ≤ restShare W dim k x p ∧ (restShare W dim k x p = 0 ↔ p.w.length = k) := by
    intro p hp
    have h0 : ∀ y ∈ (List.range (p.w.length - k)).map fun i => share W dim (k + i) x p, 0 < y := by
      intro y hy
      obtain ⟨i, hi, rfl⟩ := List.mem_map.1 hy
      have := List.mem_range.1 hi
      exact hs p hp _ (by omega)
    refine ⟨List.sum_nonneg fun y hy => (h0 y hy).le, fun h => ?_, fun h => by unfold restShare; rw [h, Nat.sub_self]; rfl⟩
    by_contra hne
    have := hk p hp
    have hpos := List.sum_pos _ h0 (by simp; omega)
    unfold restShare at h
    exact hpos.ne' h
  have hgap := C143_gap W dim ps hk x
  have hnn : 0 ≤ (ps.map (restShare W dim k x)).sum := List.sum_nonneg fun y hy => by
    obtain ⟨p, hp, rfl⟩ := List.mem_map.1 hy
    exact (hr p hp).1
  refine ⟨by rw [hgap]; exact le_add_of_nonneg_right (div_nonneg hnn (Nat.cast_nonneg _)), fun h p hp => ?_, fun h => ?_⟩
  · rw [hgap] at h
    have hz : (ps.map (restShare W dim k x)).sum / (ps.length : K) = 0 := by linarith
    have hl : (ps.length : K) ≠ 0 := by rw [Nat.cast_ne_zero]; exact (List.length_pos_of_mem hp).ne'
    have h0 := (div_eq_zero_iff.1 hz).resolve_right hl
    by_contra hne
    have hlt : 0 < restShare W dim k x p := lt_of_le_of_ne (hr p hp).1 fun h => hne ((hr p hp).2.1 h.symm)
    have : restShare W dim k x p ≤ (ps.map (restShare W dim k x)).sum := List.single_le_sum (fun y hy => by
      obtain ⟨q, hq, rfl⟩ := List.mem_map.1 hy
      exact (hr q hq).1) _ (List.mem_map_of_mem hp)
    linarith
  · rw [hgap]
    have h0 : (ps.map (restShare W dim k x)).sum = 0 := by
      rw [List.map_congr_left (g := fun _ => (0 : K)) fun p hp => (hr p hp).2.2 (h p hp)]
      simp
    rw [h0, zero_div, add_zero]

/-- The run of the next theorem. -/
def threeStates : GM (DP.cls : WeightClass ℚ) 1 ℚ × ℕ :=
  run { world with eps := 0 } (meanO : Oracle ℚ) (dpObj 1 4 1 1, 0) [⟨rows1 [1, 2, 5, 7], .int 2, false, .kmeans⟩]

theorem threeStates_eq : threeStates = run { world with eps := 0 } (meanO : Oracle ℚ) (dpObj 1 4 1 1, 0) [⟨rows1 [1, 2, 5, 7], .int 2, false, .kmeans⟩] := rfl

attribute [local irreducible] threeStates

/-- **Components that do not add up**: a Dirichlet process mixture with three saved states of 2, 2 and 1 weights.  The call raises for every component but component 0
(`IndexError` for component 1), and component 0 is less than the whole. -/
theorem C143_refuted : threeStates.1.gibbsFitted = true ∧ threeStates.1.saved.map (fun p => p.w.length) = [2, 2, 1] ∧
    eapDensity { world with eps := 0 } threeStates.1 (some (rows1 [0])) .none (some 1) none = .error .indexError ∧
    (∀ j, (∃ r, eapDensity { world with eps := 0 } threeStates.1 (some (rows1 [0])) .none (some j) none = .ok r) ↔ j = 0) ∧
    ∃ a b, eapDensity { world with eps := 0 } threeStates.1 (some (rows1 [0])) .none (some 0) none = .ok [a] ∧
      eapDensity { world with eps := 0 } threeStates.1 (some (rows1 [0])) .none none none = .ok [b] ∧ a < b := by
  have hf : threeStates.1.gibbsFitted = true := by decide +kernel
  have hl : threeStates.1.saved.map (fun p => p.w.length) = [2, 2, 1] := by decide +kernel
  refine ⟨hf, hl, by decide +kernel, fun j => ?_, ?_⟩
  · have h := C143_returns (ω := (meanO : Oracle ℚ)) { world with eps := 0 } .dp (dpObj 1 4 1 1, 0) rfl [⟨rows1 [1, 2, 5, 7], .int 2, false, .kmeans⟩] (threeStates_eq ▸ hf)
      ([0].map fun x _ => x) (dim := .none) (by decide) none j
    rw [← threeStates_eq] at h
    refine h.trans ⟨fun h => ?_, fun h p hp => ?_⟩
    · have h1 : (1 : ℕ) ∈ threeStates.1.saved.map (fun p => p.w.length) := by rw [hl]; simp
      obtain ⟨p, hp, e⟩ := List.mem_map.1 h1
      have := h p hp
      omega
    · have : p.w.length ∈ threeStates.1.saved.map (fun p => p.w.length) := List.mem_map_of_mem hp
      rw [hl] at this
      simp at this
      omega
  · have h : (match eapDensity { world with eps := 0 } threeStates.1 (some (rows1 [0])) .none (some 0) none,
        eapDensity { world with eps := 0 } threeStates.1 (some (rows1 [0])) .none none none with
      | .ok [a], .ok [b] => decide (a < b)
      | _, _ => false) = true := by decide +kernel
    revert h
    rcases eapDensity { world with eps := 0 } threeStates.1 (some (rows1 [0])) .none (some 0) none with e | ⟨_ | ⟨a, _ | _⟩⟩ <;>
    rcases eapDensity { world with eps := 0 } threeStates.1 (some (rows1 [0])) .none none none with e' | ⟨_ | ⟨b, _ | _⟩⟩ <;> intro h <;>
    first | exact ⟨a, b, rfl, rfl, of_decide_eq_true h⟩ | simp at h

/-! ### The hypotheses are met -/

/-- Equal weights: two components, with what they contribute and the whole. -/
example : let t := run world (demo : Oracle ℚ) (eqObj 2 4 1 2, 0) [⟨rows1 [1, 2, 5], .int 2, false, .kmeans⟩]
    t.1.gibbsFitted = true ∧ usedStates t.1.saved none ≠ [] ∧ (eqObj 2 4 1 2).saved = [] ∧ (eqObj 2 4 1 2).wst.1.n = 2 ∧
      eapDensity world t.1 (some (rows1 [0])) .none (some 2) none ≠ eapDensity world t.1 (some (rows1 [0])) .none (some 1) none := by
  decide +kernel

/-- Positive weights and atoms in the states of the refutation. -/
example : (∀ p ∈ threeStates.1.saved, ∀ w ∈ p.w, 0 < w) ∧ ∀ p ∈ threeStates.1.saved, 1 ≤ p.w.length := by decide +kernel
end Mix
end Verif
