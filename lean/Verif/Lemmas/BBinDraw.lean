import Verif.Lemmas.RandomPost
import Verif.Lemmas.Reach
import Verif.Lemmas.BBerOk

/-! # The draws of `BetaBinomial`, one by one -/

set_option linter.unusedSectionVars false

namespace Verif
open Spec
variable {K : Type} [Field K] [LinearOrder K] [IsStrictOrderedRing K] {ω : Oracle K}

/-- The Beta-Binomial chain from the stick `x` on: in turn `z ~ Binomial(n, last stick)` and a stick `~ Beta(1 + z, alpha + n - z)`, at consecutive stream
positions from `pos`. -/
structure ChainFrom (ω : Oracle K) (n : ℤ) (alpha : K) (pos : ℕ) (x : K) (zs : List ℤ) (vs : List K) : Prop where
  len : zs.length = vs.length
  step : ∀ j < vs.length, ∃ y z v', (x :: vs)[j]? = some y ∧ zs[j]? = some z ∧ vs[j]? = some v' ∧ z = ω.binom (pos + 2 * j) n y ∧
    v' = ω.beta (pos + 2 * j + 1) (1 + (z : K)) (alpha + (n : K) - (z : K))

theorem ChainFrom.nil (n : ℤ) (alpha : K) (pos : ℕ) (x : K) : ChainFrom ω n alpha pos x [] [] := ⟨rfl, nofun⟩

theorem ChainFrom.cons {n : ℤ} {alpha : K} {pos : ℕ} {x : K} {zs : List ℤ} {vs : List K}
    (h : ChainFrom ω n alpha (pos + 2) (ω.beta (pos + 1) (1 + ((ω.binom pos n x : ℤ) : K)) (alpha + (n : K) - ((ω.binom pos n x : ℤ) : K))) zs vs) :
    ChainFrom ω n alpha pos x (ω.binom pos n x :: zs)
      (ω.beta (pos + 1) (1 + ((ω.binom pos n x : ℤ) : K)) (alpha + (n : K) - ((ω.binom pos n x : ℤ) : K)) :: vs) := by
  refine ⟨by simp [h.len], fun j hj => ?_⟩
  cases j with
  | zero => exact ⟨x, _, _, rfl, rfl, rfl, rfl, rfl⟩
  | succ j =>
    obtain ⟨y, z, v', h1, h2, h3, h4, h5⟩ := h.step j (by simpa using hj)
    refine ⟨y, z, v', h1, h2, h3, ?_, ?_⟩
    · rw [h4, show pos + 2 + 2 * j = pos + 2 * (j + 1) by ring]
    · rw [h5, show pos + 2 + 2 * j = pos + 2 * (j + 1) by ring]

namespace BBin

/-- The same parameters and labels. -/
structure KeepB (s t : BBin K) : Prop where
  n : t.n = s.n
  alpha : t.alpha = s.alpha
  d : t.d = s.d

theorem grow_chain (k : ℕ) (s : BBin K × ℕ) {x : K} (hx : s.1.v.getLast? = some x) :
    wp ω (grow k) (fun _ t => ∃ zs vs, vs.length = k ∧ t.1.v = s.1.v ++ vs ∧ t.1.binomials = s.1.binomials ++ zs ∧ t.2 = s.2 + 2 * k ∧ KeepB s.1 t.1 ∧
      ChainFrom ω s.1.n s.1.alpha s.2 x zs vs) (fun _ _ => True) s := by
  induction k generalizing s x with
  | zero => exact ⟨[], [], rfl, by simp, by simp, rfl, ⟨rfl, rfl, rfl⟩, .nil _ _ _ _⟩
  | succ k ih =>
    unfold grow growOne
    have hne : s.1.v ≠ [] := by rintro h; rw [h] at hx; cases hx
    obtain ⟨y, hy, hy'⟩ := index_last hne
    have hyx : y = x := by rw [List.getLast?_eq_getElem?, hy'] at hx; exact Option.some.inj hx
    rw [wp_bind, wp_bind, wp_self, hy, wp_bind, wp_lift]
    refine ⟨?_, nofun⟩
    rintro _ ⟨⟩
    rw [hyx, wp_bind, wp_binom]
    refine ⟨fun _ => trivial, fun _ _ _ => ?_⟩
    rw [wp_bind, wp_assign, wp_bind, wp_beta]
    refine ⟨fun _ => trivial, fun _ _ => ?_⟩
    rw [wp_assign]
    refine wp_mono (ih _ (x := ω.beta (s.2 + 1) (1 + ((ω.binom s.2 s.1.n x : ℤ) : K)) (s.1.alpha + (s.1.n : K) - ((ω.binom s.2 s.1.n x : ℤ) : K))) (by simp)) ?_
      (fun _ _ _ => trivial)
    rintro _ t ⟨zs, vs, h1, h2, h3, h4, h5, h6⟩
    refine ⟨_ :: zs, _ :: vs, by simp [h1], ?_, ?_, ?_, ⟨h5.n, h5.alpha, h5.d⟩, .cons h6⟩
    · rw [h2]; simp
    · rw [h3]; simp
    · rw [h4]; ring

/-- `complete` of an object with sticks. -/
theorem complete_chain (size : PySize) {k : ℤ} (hk : size.toInt? = some k) (s : BBin K × ℕ) {x : K} (hx : s.1.v.getLast? = some x) :
    wp ω (complete size) (fun r t => ∃ zs vs, vs.length = (k - s.1.v.length).toNat ∧ t.1.v = s.1.v ++ vs ∧ t.1.binomials = s.1.binomials ++ zs ∧
      t.2 = s.2 + 2 * vs.length ∧ KeepB s.1 t.1 ∧ ChainFrom ω s.1.n s.1.alpha s.2 x zs vs ∧ r = stickWeights t.1.v) (fun _ _ => True) s := by
  have hne : s.1.v ≠ [] := by rintro h; rw [h] at hx; cases hx
  have hl : ¬ s.1.v.length = 0 := fun h => hne (List.length_eq_zero_iff.1 h)
  unfold complete
  rw [wp_bind, wp_lift]
  refine ⟨fun _ _ => ?_, fun _ _ => trivial⟩
  rw [wp_bind, wp_self, wp_bind, wp_whenM]
  refine ⟨fun h => absurd h hl, fun _ => ?_⟩
  rw [hk]
  dsimp only
  rw [wp_bind, wp_self, wp_bind]
  refine wp_mono (grow_chain _ s hx) ?_ (fun _ _ _ => trivial)
  rintro _ t ⟨zs, vs, h1, h2, h3, h4, h5, h6⟩
  rw [wp_bind, wp_assign, wp_bind, wp_self, wp_pure]
  exact ⟨zs, vs, h1, h2, h3, by rw [h4, h1], ⟨h5.n, h5.alpha, h5.d⟩, h6, rfl⟩

/-- `complete` of an object without sticks: the chain starts at a stick `Beta(1, alpha)` that is not kept. -/
theorem complete_start (size : PySize) {k : ℤ} (hk : size.toInt? = some k) (s : BBin K × ℕ) (hv : s.1.v = []) :
    wp ω (complete size) (fun r t => t.1.v.length = max 1 k.toNat ∧ KeepB s.1 t.1 ∧
      ChainFrom ω s.1.n s.1.alpha (s.2 + 1) (ω.beta s.2 1 s.1.alpha) t.1.binomials t.1.v ∧ r = stickWeights t.1.v) (fun _ _ => True) s := by
  unfold complete
  rw [wp_bind, wp_lift]
  refine ⟨fun _ _ => ?_, fun _ _ => trivial⟩
  rw [wp_bind, wp_self, wp_bind, wp_whenM]
  refine ⟨fun _ => ?_, fun h => absurd (by rw [hv]; rfl) h⟩
  rw [wp_bind, wp_beta]
  refine ⟨fun _ => trivial, fun _ _ => ?_⟩
  rw [wp_bind, wp_binom]
  refine ⟨fun _ => trivial, fun _ _ _ => ?_⟩
  rw [wp_bind, wp_assign, wp_bind, wp_beta]
  refine ⟨fun _ => trivial, fun _ _ => ?_⟩
  rw [wp_assign, hk]
  dsimp only
  rw [wp_bind, wp_self, wp_bind]
  refine wp_mono (grow_chain _ _ rfl) ?_ (fun _ _ _ => trivial)
  rintro _ t ⟨zs, vs, h1, h2, h3, h4, h5, h6⟩
  rw [wp_bind, wp_assign, wp_bind, wp_self, wp_pure]
  dsimp only at h1 h2 h3 h6 ⊢
  refine ⟨?_, ⟨h5.n, h5.alpha, h5.d⟩, ?_, rfl⟩
  · rw [h2]; simp at h1 ⊢; omega
  · rw [h2, h3]
    exact .cons h6

/-- The binomials drawn with data. -/
def zPost (ω : Oracle K) (n : ℤ) (alpha : K) (d : List ℤ) (pos m : ℕ) : ℕ → ℤ
  | 0 => ω.binom (pos + (m + 2)) n (ω.beta pos 1 alpha)
  | i + 1 => ω.binom (pos + (m + 2) + (i + 1)) n (ω.beta (pos + (i + 1)) (1 + (nEq d i : K)) (alpha + (nGt d i : K)))

theorem randomBinomials_post (s : BBin K × ℕ) {m : ℕ} (hm : IsMaxLabel s.1.d m) :
    wp ω randomBinomials (fun _ t => t = ({ s.1 with binomials := (List.range (m + 2)).map (zPost ω s.1.n s.1.alpha s.1.d s.2 m) }, s.2 + 2 * (m + 2)))
      (fun _ _ => True) s := by
  have hd : s.1.d ≠ [] := List.ne_nil_of_mem hm.1
  unfold randomBinomials
  rw [wp_bind, wp_self, wp_bind, wp_lift]
  refine ⟨fun a hb => ?_, fun _ _ => trivial⟩
  have hB := IsBincount.of_ok hb
  have hal : a.length = m + 1 := by have := hB.length_eq hm; omega
  have hane := hB.ne_nil hd
  dsimp only
  rw [List.zipWith_cons_cons, hB.zipWith_eq hane, hal, wp_bind, wp_betaVec]
  refine ⟨fun _ => trivial, fun _ => ?_⟩
  rw [wp_bind, wp_binomVec]
  refine ⟨fun _ => trivial, fun _ _ => ?_⟩
  rw [wp_assign]
  have hlen : (M.betaValues ω s.2 ((1 + ((0 : ℕ) : K), s.1.alpha + ((0 : ℕ) : K)) :: (List.range (m + 1)).map (fun j => (1 + (nEq s.1.d j : K), s.1.alpha + (nGt s.1.d j : K))))).length = m + 2 := by
    simp [M.betaValues]
  refine Prod.ext ?_ ?_
  · dsimp only
    congr 1
    refine list_ext_range ?_ fun j hj => ?_
    · rw [List.length_mapIdx, hlen]
    · rw [List.getElem?_mapIdx]
      cases j with
      | zero => simp [M.betaValues, zPost]
      | succ j => simp [M.betaValues, zPost, show j < m + 1 by omega]
  · rw [hlen]; simp; ring

/-- The sticks drawn with data. -/
def vPost (ω : Oracle K) (n : ℤ) (alpha : K) (d : List ℤ) (pos : ℕ) (z : ℕ → ℤ) (j : ℕ) : K :=
  ω.beta (pos + j) (1 + (nEq d j : K) + ((z j + z (j + 1) : ℤ) : K)) (alpha + (nGt d j : K) + 2 * (n : K) - ((z j + z (j + 1) : ℤ) : K))

theorem params_eq (s : BBin K) {m : ℕ} (hm : IsMaxLabel s.d m) {a : List ℕ} (hB : IsBincount s.d a) (z : ℕ → ℤ) (hz : s.binomials = (List.range (m + 2)).map z) :
    params s a (revTails a) = (List.range (m + 1)).map (fun j => (1 + (nEq s.d j : K) + ((z j + z (j + 1) : ℤ) : K),
      s.alpha + (nGt s.d j : K) + 2 * (s.n : K) - ((z j + z (j + 1) : ℤ) : K))) := by
  have hal : a.length = m + 1 := by have := hB.length_eq hm; omega
  have hane := hB.ne_nil (List.ne_nil_of_mem hm.1)
  refine list_ext_range ?_ fun j hj => ?_
  · simp [params, phased, hz, hal, revTails_length hane]
  · have hj' : j < m + 1 := by simpa [params, phased, hz, hal, revTails_length hane] using hj
    unfold params phased
    rw [hz, List.getElem?_zipWith, (List.getElem?_zip_eq_some (z := (nEq s.d j, nGt s.d j))).2 ⟨by rw [hB.getElem? j, if_pos (by omega)], hB.revTails_get j (by omega)⟩, List.getElem?_zipWith, List.dropLast_eq_take]
    simp [hj']

theorem random_fitted_chain {size : PySize} (s : BBin K × ℕ) {m : ℕ} (hm : IsMaxLabel s.1.d m) :
    wp ω (random size) (fun r t => ∃ zs vs,
      t.1.binomials = (List.range (m + 2)).map (zPost ω s.1.n s.1.alpha s.1.d s.2 m) ++ zs ∧
      t.1.v = (List.range (m + 1)).map (vPost ω s.1.n s.1.alpha s.1.d (s.2 + 2 * (m + 2)) (zPost ω s.1.n s.1.alpha s.1.d s.2 m)) ++ vs ∧
      (∃ x, ((List.range (m + 1)).map (vPost ω s.1.n s.1.alpha s.1.d (s.2 + 2 * (m + 2)) (zPost ω s.1.n s.1.alpha s.1.d s.2 m)))[m]? = some x ∧
        ChainFrom ω s.1.n s.1.alpha (s.2 + 2 * (m + 2) + (m + 1)) x zs vs) ∧ r = stickWeights t.1.v ∧
      vs.length = (size.toInt?.getD 1 - ((m : ℤ) + 1)).toNat) (fun _ _ => True) s := by
  have hd : s.1.d ≠ [] := List.ne_nil_of_mem hm.1
  have hl : ¬ s.1.d.length = 0 := fun h => hd (List.length_eq_zero_iff.1 h)
  unfold random randomSized
  rw [wp_bind, wp_self, wp_ite]
  refine ⟨fun h => absurd h.2 hl, fun _ => ?_⟩
  rw [wp_bind, wp_assign, wp_bind, wp_self, if_neg hl, wp_bind]
  refine wp_mono (randomBinomials_post ({ s.1 with v := [] }, s.2) hm) ?_ (fun _ _ _ => trivial)
  rintro _ _ rfl
  rw [wp_bind, wp_lift]
  refine ⟨fun a hb => ?_, fun _ _ => trivial⟩
  have hB := IsBincount.of_ok hb
  dsimp only at hb ⊢
  rw [wp_bind, wp_self, params_eq (⟨s.1.n, s.1.alpha, [], (List.range (m + 2)).map (zPost ω s.1.n s.1.alpha s.1.d s.2 m), s.1.w, s.1.d⟩ : BBin K) hm hB _ rfl, wp_bind, wp_betaVec]
  refine ⟨fun _ => trivial, fun _ => ?_⟩
  rw [wp_bind, wp_assign]
  have hbv : M.betaValues ω (s.2 + 2 * (m + 2)) ((List.range (m + 1)).map (fun j => (1 + (nEq s.1.d j : K) + ((zPost ω s.1.n s.1.alpha s.1.d s.2 m j + zPost ω s.1.n s.1.alpha s.1.d s.2 m (j + 1) : ℤ) : K),
      s.1.alpha + (nGt s.1.d j : K) + 2 * (s.1.n : K) - ((zPost ω s.1.n s.1.alpha s.1.d s.2 m j + zPost ω s.1.n s.1.alpha s.1.d s.2 m (j + 1) : ℤ) : K)))) =
      (List.range (m + 1)).map (vPost ω s.1.n s.1.alpha s.1.d (s.2 + 2 * (m + 2)) (zPost ω s.1.n s.1.alpha s.1.d s.2 m)) := by
    refine list_ext_range (by simp [M.betaValues]) fun j hj => ?_
    have hj' : j < m + 1 := by simpa [M.betaValues] using hj
    simp [M.betaValues, hj', vPost]
  dsimp only
  rw [hbv]
  cases hk : (if size = .none then PySize.int 1 else size).toInt? with
  | none =>
    unfold complete
    rw [wp_bind, wp_lift]
    refine ⟨fun _ _ => ?_, fun _ _ => trivial⟩
    rw [hk, wp_bind, wp_self, wp_bind, wp_whenM]
    refine ⟨fun h => ?_, fun _ => trivial⟩
    simp at h
  | some k =>
    refine wp_mono (complete_chain _ hk _ (x := vPost ω s.1.n s.1.alpha s.1.d (s.2 + 2 * (m + 2)) (zPost ω s.1.n s.1.alpha s.1.d s.2 m) m) ?_) ?_ (fun _ _ _ => trivial)
    · simp [List.range_succ]
    · rintro r t ⟨zs, vs, h1, h2, h3, h4, h5, h6, h7⟩
      refine ⟨zs, vs, h3, h2, ⟨vPost ω s.1.n s.1.alpha s.1.d (s.2 + 2 * (m + 2)) (zPost ω s.1.n s.1.alpha s.1.d s.2 m) m, by simp, ?_⟩, h7, ?_⟩
      · simpa using h6
      · rw [h1]
        have : size.toInt?.getD 1 = k := by
          split at hk
          · rename_i h; subst h; cases hk; rfl
          · rw [hk]; rfl
        rw [this]
        simp

end BBin
end Verif
