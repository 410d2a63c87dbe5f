import Verif.Props.C25
import Verif.Props.C86

/-!
# The slice step of a mixture with geometric weights
-/

namespace Verif.Mix
open MeasureTheory ProbabilityTheory GM
open scoped ENNReal

variable {m n : ℕ} {Atom : Type}

/-- The weights of a geometric structure. -/
def geoSeq (p : ℝ) (j : ℕ) : ℝ := p * (1 - p) ^ j

theorem geoSeq_pos {p : ℝ} (hp : 0 < p ∧ p < 1) (j : ℕ) : 0 < geoSeq p j := mul_pos hp.1 (pow_pos (by linarith [hp.2]) j)

theorem geoSeq_sum {p : ℝ} (hp : 0 < p ∧ p < 1) : HasSum (geoSeq p) 1 := by
  have h := (hasSum_geometric_of_lt_one (r := 1 - p) (by linarith [hp.2]) (by linarith [hp.1])).mul_left p
  rw [sub_sub_cancel, mul_inv_cancel₀ hp.1.ne'] at h
  exact h

theorem geo_weights (p : ℝ) (k : ℕ) : stickWeights (List.replicate k p) = (List.range k).map (geoSeq p) := by
  have h := stickWeights_seq (fun _ => p) k
  rw [List.map_const', List.length_range] at h
  rw [h]
  refine List.map_congr_left fun j _ => ?_
  simp [stickSeq, geoSeq]

/-- A geometric structure shows `k` weights, and the object can get the atoms `θ`. -/
def GeoShows (W : World ℝ m Atom) (ω : Oracle ℝ) (p : ℝ) (θ : ℕ → Atom) (y : Fin n → Fin m → ℝ) (k : ℕ) (s : GM Geo.cls m Atom × ℕ) : Prop :=
  s.1.y = List.ofFn y ∧ s.1.wst.1.p = p ∧ s.1.wst.1.v = List.replicate k p ∧ s.1.wst.1.w = stickWeights (List.replicate k p) ∧
    ∀ us ws k, ∃ s', getAtoms (C := Geo.cls) W (List.range k) ω ({ s.1 with u := us, wst := ws }, s.2 + n) = (.ok ((List.range k).map θ), s')

/-- What `tail` leaves after the slice variables: the first `max k N` weights, where `N` is the integer part of the quotient of logarithms for the smallest slice level. -/
theorem geo_slice {W : World ℝ m Atom} (heps : W.eps = 0) {ω : Oracle ℝ} {p : ℝ} (hp : 0 < p ∧ p < 1) {θ : ℕ → Atom} {y : Fin n → Fin m → ℝ} (hn : 2 ≤ n) {k : ℕ} {s : GM Geo.cls m Atom × ℕ}
    (h : GeoShows W ω p θ y k s) {d : Fin n → ℕ} (hd : ∀ i, d i < k) {fuel : (ℕ → ℝ) → ℕ} {U : ℕ → ℝ} (hU : ∀ q, 0 < U q ∧ U q < 1) :
    ∃ u N s1 s2, u ∈ slices (geoSeq p) d s.2 U ∧ (∀ v ∈ slices (geoSeq p) d s.2 U, u ≤ v) ∧ u ≤ (1 - p) ^ N ∧ (1 - p) ^ (N + 1) < u ∧
      sliceTail (withSlices W fuel U) (List.ofFn d) (stickWeights (List.replicate k p)) ω s = (.ok (), s1) ∧ s1.1.u = slices (geoSeq p) d s.2 U ∧
      s1.1.wst.1.w = (List.range (max k N)).map (geoSeq p) ∧ getAtoms W (List.range (max k N)) ω s1 = (.ok ((List.range (max k N)).map θ), s2) := by
  obtain ⟨hy, hsp, hsv, hsw, hat⟩ := h
  have hw0 : ∀ i, (stickWeights (List.replicate k p))[d i]? = some (geoSeq p (d i)) := fun i => by
    rw [geo_weights, List.getElem?_map, List.getElem?_range (hd i)]; rfl
  have hgat := gather_map (w := stickWeights (List.replicate k p)) (ws := geoSeq p) (d := List.ofFn d) (by simpa [List.mem_ofFn] using hw0)
  have hus : ((List.ofFn d).map (geoSeq p)).mapIdx (fun i x => (withSlices W fuel U).unif (s.2 + i) (withSlices W fuel U).eps (x + (withSlices W fuel U).eps)) = slices (geoSeq p) d s.2 U := by
    have : (withSlices W fuel U).eps = 0 := heps
    unfold slices
    simp only [this]
    congr 1
    funext i x
    simp [withSlices]
  have hmem : ∀ u ∈ slices (geoSeq p) d s.2 U, 0 < u ∧ u ≤ 1 := by
    intro u hu
    obtain ⟨i, hi, rfl⟩ := List.mem_iff_getElem.1 hu
    have hi' : i < n := by simpa [slices] using hi
    have h1 : (slices (geoSeq p) d s.2 U)[i] = geoSeq p (d ⟨i, hi'⟩) * U (s.2 + i) := by simp [slices]
    rw [h1]
    have hle : geoSeq p (d ⟨i, hi'⟩) ≤ 1 := le_hasSum (geoSeq_sum hp) _ fun j _ => (geoSeq_pos hp j).le
    refine ⟨mul_pos (geoSeq_pos hp _) (hU _).1, ?_⟩
    calc geoSeq p (d ⟨i, hi'⟩) * U (s.2 + i) ≤ 1 * 1 := mul_le_mul hle (hU _).2.le (hU _).1.le zero_le_one
      _ = 1 := one_mul 1
  obtain ⟨u, hu, humin, hule⟩ := minK_mem (l := slices (geoSeq p) d s.2 U) (by
    intro h
    have := congrArg List.length h
    simp only [slices, List.length_mapIdx, List.length_map, List.length_ofFn, List.length_nil] at this
    omega)
  obtain ⟨hu0, hu1⟩ := hmem u hu
  have hx : 0 ≤ 1 - u ∧ 1 - u < 1 := ⟨by linarith, by linarith⟩
  obtain ⟨N, hN, h1, h2⟩ := Geo.tailSize_spec hp hx
  rw [sub_sub_cancel] at h1 h2
  have ht := Geo.tail_eq (ω := ω) hx s.1.wst (hsp.symm ▸ hN) (by omega)
  have ht' : ∃ st r, Geo.tail (1 - u) ω s.1.wst = (.ok r, st) ∧ st.1.w = (List.range (max k N)).map (geoSeq p) := by
    rw [hsv, List.length_replicate, hsp, Int.toNat_natCast] at ht
    by_cases hk : (k : ℤ) < (N : ℤ)
    · rw [if_pos hk] at ht
      refine ⟨_, _, ht, ?_⟩
      rw [max_eq_right (by omega), ← geo_weights]
    · rw [if_neg hk] at ht
      refine ⟨_, _, ht, ?_⟩
      rw [max_eq_left (by omega), ← geo_weights]
      exact hsw
  obtain ⟨st, r, hst, hstw⟩ := ht'
  obtain ⟨s2, hs2⟩ := hat (slices (geoSeq p) d s.2 U) st (max k N)
  refine ⟨u, N, ({ s.1 with u := slices (geoSeq p) d s.2 U, wst := st }, s.2 + n), s2, hu, hule, h1, h2, ?_, rfl, hstw, hs2⟩
  unfold sliceTail
  rw [M.bind_apply, hgat, M.lift_ok]
  simp only
  rw [M.bind_apply, drawSlices, hus]
  simp only
  rw [M.bind_apply, M.assign_apply]
  simp only
  rw [M.bind_apply, humin, M.lift_ok]
  simp only
  rw [M.bind_apply, callW]
  have : ((Geo.cls : WeightClass ℝ).tail (withSlices W fuel U).fuel (1 - u)) ω s.1.wst = (.ok r, st) := hst
  simp only [this]
  simp

end Verif.Mix
