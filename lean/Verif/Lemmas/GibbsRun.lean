import Verif.Props.C67
import Verif.Props.C86

/-! # A Gibbs step with a complete set of finitely many weights and atoms -/

namespace Verif.Mix
open MeasureTheory ProbabilityTheory GM
open scoped ENNReal

section
variable {K : Type} [Field K] {C : WeightClass K} {m : ℕ} {Atom : Type} {ω : Oracle K}

/-- The atoms of the components `js` are redrawn, in this order. -/
theorem updateAtoms_run (W : World K m Atom) (js : List ℕ) (hn : js.Nodup) (s : GM C m Atom × ℕ) (hl : s.1.y.length = s.1.d.length) :
    ∃ th, updateAtoms W js ω s = (.ok (), ({ s.1 with theta := th }, s.2 + js.length)) ∧ ∀ k, th.lookup k =
      if k ∈ js then some (W.atom (s.2 + js.idxOf k) (posteriorNIW (rowsWith s.1.y s.1.d k) (prior s.1))) else s.1.theta.lookup k := by
  induction js generalizing s with
  | nil => exact ⟨s.1.theta, rfl, by simp⟩
  | cons j js ih =>
    rw [List.nodup_cons] at hn
    have hr : rowsOf s.1.y s.1.d j = .ok (rowsWith s.1.y s.1.d j) := by unfold rowsOf rowsWith; rw [if_pos hl]
    obtain ⟨th, h1, h2⟩ := ih hn.2 ({ s.1 with theta := setAtom s.1.theta j (W.atom s.2 (posteriorNIW (rowsWith s.1.y s.1.d j) (prior s.1))) }, s.2 + 1) hl
    refine ⟨th, ?_, fun k => ?_⟩
    · unfold updateAtoms
      rw [M.bind_apply]
      simp only [M.self]
      rw [M.bind_apply, hr, M.lift_ok]
      simp only
      rw [M.bind_apply, draw1]
      simp only
      rw [M.bind_apply, M.assign_apply]
      simp only
      rw [h1]
      simp only [List.length_cons]
      congr 2
      omega
    · rw [h2 k]
      simp only [List.mem_cons]
      by_cases hk : k = j
      · subst hk
        rw [if_neg hn.1, if_pos (.inl rfl), lookup_setAtom, if_pos rfl, List.idxOf_cons_self]
        rfl
      · by_cases hm : k ∈ js
        · rw [if_pos hm, if_pos (.inr hm), List.idxOf_cons_ne _ (Ne.symm hk)]
          have e : s.2 + 1 + js.idxOf k = s.2 + (js.idxOf k).succ := by omega
          show some (W.atom (s.2 + 1 + js.idxOf k) _) = _
          rw [e]; rfl
        · rw [if_neg hm, if_neg (by simp [hk, hm]), lookup_setAtom, if_neg hk]

end

variable {m : ℕ} {Atom : Type} {ω : Oracle ℝ} {C0 : WeightCore ℝ}

/-- With weights that sum to one, the slice step changes the slice variables only. -/
theorem sliceTail_complete {W : World ℝ m Atom} {d : List ℕ} {w : List ℝ} {s s' : GM C0.inheritTail m Atom × ℕ} (hw : C0.getW s.1.wst.1 = w) (hne : w ≠ []) (hsum : w.sum = 1)
    (h : sliceTail W d w ω s = (.ok (), s')) : ∃ us, s' = ({ s.1 with u := us }, s.2 + us.length) := by
  refine wp_of_ok (Q := fun _ t => ∃ us : List ℝ, t = ({ s.1 with u := us }, s.2 + us.length)) (E := fun _ _ => True) h ?_
  unfold sliceTail
  rw [wp_bind, wp_lift]
  refine ⟨fun ws _ => ?_, fun _ _ => trivial⟩
  rw [wp_bind, wp_drawSlices, wp_bind, wp_assign, wp_bind, wp_lift]
  refine ⟨fun u _ => ?_, fun _ _ => trivial⟩
  rw [wp_bind, wp_callW]
  show wp ω (BaseWeight.tail C0 W.fuel (1 - u)) _ _ s.1.wst
  by_cases h0 : 0 ≤ 1 - u ∧ 1 - u < 1
  · have ht : BaseWeight.tail C0 W.fuel (1 - u) ω s.1.wst = (.ok (C0.getW s.1.wst.1), s.1.wst) :=
      tail_enough h0.1 h0.2 (by rw [hw]; simpa using hne) (by rw [hw, hsum]; exact h0.2.le)
    unfold wp
    rw [ht]
    exact ⟨ws.mapIdx (fun i x => W.unif (s.2 + i) W.eps (x + W.eps)), by simp⟩
  · have ht : BaseWeight.tail C0 W.fuel (1 - u) ω s.1.wst = (.error .valueError, s.1.wst) := by
      unfold BaseWeight.tail
      rw [if_pos]
      · rfl
      · by_contra hc
        push Not at hc
        exact h0 ⟨hc.2, hc.1⟩
    unfold wp
    rw [ht]
    trivial

/-- With a complete set of weights and atoms, a label step changes slice variables and labels only. -/
theorem assignStep_complete {W : World ℝ m Atom} {d : List ℕ} {w : List ℝ} {s s' : GM C0.inheritTail m Atom × ℕ} {θ : ℕ → Atom} (hw : C0.getW s.1.wst.1 = w) (hne : w ≠ [])
    (hsum : w.sum = 1) (hθ : ∀ j < w.length, s.1.theta.lookup j = some (θ j)) (h : assignStep W d w ω s = (.ok (), s')) :
    ∃ us d', s' = ({ s.1 with u := us, d := d' }, s.2 + us.length + w.length * s.1.y.length) := by
  unfold assignStep at h
  rw [M.bind_apply] at h
  cases hs : sliceTail W d w ω s with
  | mk r s1 =>
    rw [hs] at h
    cases r with
    | error e => simp at h
    | ok _ =>
      obtain ⟨us, rfl⟩ := sliceTail_complete hw hne hsum hs
      simp only at h
      unfold updateD at h
      rw [M.bind_apply] at h
      simp only [M.self] at h
      have hgw : (C0.inheritTail).getW s.1.wst.1 = w := hw
      rw [M.bind_apply, hgw, getAtoms_found (θ := θ) (s := ({ s.1 with u := us }, s.2 + us.length)) (List.range w.length) (fun j hj => hθ j (by exact List.mem_range.1 hj))] at h
      simp only at h
      split at h
      · simp [M.raise] at h
      · rw [M.bind_apply, drawNoise] at h
        simp only at h
        rw [M.bind_apply] at h
        cases hg : gumbelMaxSampling (List.zipWith (column W w ((List.range w.length).map θ)) s.1.y us)
            ((List.range s.1.y.length).map (noise W (s.2 + us.length) w.length s.1.y.length)) with
        | error e =>
          rw [hg] at h
          simp [M.lift] at h
        | ok d' =>
          rw [hg, M.lift_ok] at h
          simp only [M.assign_apply, Prod.mk.injEq, true_and] at h
          exact ⟨us, d', h.symm⟩

/-- With weights that sum to one and all atoms known, the slice step returns and nothing has to be completed. -/
theorem sliceTail_returns {W : World ℝ m Atom} (heps : W.eps = 0) {fuel : (ℕ → ℝ) → ℕ} {U : ℕ → ℝ} (hU : ∀ p, 0 < U p ∧ U p < 1) {n : ℕ} (hn : 0 < n) {d : Fin n → ℕ} {wl : List ℝ} {w : ℕ → ℝ}
    (hwl : wl = (List.range wl.length).map w) (hw1 : ∀ j, w j ≤ 1) (hz : ∀ j, wl.length ≤ j → w j = 0) (hpos : ∀ i, 0 < w (d i)) {s : GM C0.inheritTail m Atom × ℕ} (hgw : C0.getW s.1.wst.1 = wl)
    (hsum : wl.sum = 1) {θ : ℕ → Atom} (hθ : ∀ j < wl.length, s.1.theta.lookup j = some (θ j)) :
    ∃ s1, sliceTail (withSlices W fuel U) (List.ofFn d) wl ω s = (.ok (), s1) ∧ Completes W ω w θ s1 := by
  have hdl : ∀ i, d i < wl.length := fun i => by
    by_contra h
    have := hpos i
    rw [hz _ (not_lt.1 h)] at this
    exact lt_irrefl _ this
  have hw0 : ∀ i, wl[d i]? = some (w (d i)) := fun i => by
    rw [hwl, List.getElem?_map, List.getElem?_range (hdl i)]; rfl
  have hgat := gather_map (w := wl) (ws := w) (d := List.ofFn d) (by simpa [List.mem_ofFn] using hw0)
  have hus : ((List.ofFn d).map w).mapIdx (fun i x => (withSlices W fuel U).unif (s.2 + i) (withSlices W fuel U).eps (x + (withSlices W fuel U).eps)) =
      ((List.ofFn d).map w).mapIdx (fun i x => x * U (s.2 + i)) := by
    have : (withSlices W fuel U).eps = 0 := heps
    simp only [this]
    congr 1
    funext i x
    simp [withSlices]
  have hmem : ∀ u ∈ ((List.ofFn d).map w).mapIdx (fun i x => x * U (s.2 + i)), 0 < u ∧ u ≤ 1 := by
    intro u hu
    obtain ⟨i, hi, rfl⟩ := List.mem_iff_getElem.1 hu
    have hi' : i < n := by simpa using hi
    have h1 : (((List.ofFn d).map w).mapIdx (fun i x => x * U (s.2 + i)))[i] = w (d ⟨i, hi'⟩) * U (s.2 + i) := by simp
    rw [h1]
    refine ⟨mul_pos (hpos _) (hU _).1, ?_⟩
    calc w (d ⟨i, hi'⟩) * U (s.2 + i) ≤ 1 * 1 := mul_le_mul (hw1 _) (hU _).2.le (hU _).1.le zero_le_one
      _ = 1 := one_mul 1
  obtain ⟨u, hu, humin, hule⟩ := minK_mem (l := ((List.ofFn d).map w).mapIdx (fun i x => x * U (s.2 + i))) (by
    intro h
    have := congrArg List.length h
    simp only [List.length_mapIdx, List.length_map, List.length_ofFn, List.length_nil] at this
    omega)
  obtain ⟨hu0, hu1⟩ := hmem u hu
  have hlen : wl.length ≠ 0 := (lt_of_le_of_lt (Nat.zero_le _) (hdl ⟨0, hn⟩)).ne'
  have htail : BaseWeight.tail C0 (fuel U) (1 - u) ω s.1.wst = (.ok wl, s.1.wst) := by
    have := tail_enough (C0 := C0) (ω := ω) (s := s.1.wst) (x := 1 - u) (f := fuel U) (by linarith) (by linarith) (by rw [hgw]; exact hlen) (by rw [hgw, hsum]; linarith)
    rwa [hgw] at this
  refine ⟨({ s.1 with u := ((List.ofFn d).map w).mapIdx (fun i x => x * U (s.2 + i)) }, s.2 + n), ?_, wl.length, _, ?_, getAtoms_found (θ := θ) _ fun j hj => ?_, fun j hj u hu => ?_⟩
  · unfold sliceTail
    rw [M.bind_apply, hgat, M.lift_ok]
    simp only
    rw [M.bind_apply, drawSlices]
    simp only [hus]
    rw [M.bind_apply, M.assign_apply]
    simp only
    rw [M.bind_apply, humin, M.lift_ok]
    simp only
    rw [M.bind_apply, callW]
    have : C0.inheritTail.tail (withSlices W fuel U).fuel (1 - u) ω s.1.wst = (.ok wl, s.1.wst) := htail
    simp only [this, List.length_map, List.length_ofFn]
    rfl
  · rw [← hwl]; exact hgw
  · exact hθ j (List.mem_range.1 hj)
  · rw [hz j hj]; exact (hmem u hu).1.le

end Verif.Mix
