import Verif.Lemmas.NoError
import Verif.Lemmas.Hyper

/-! # `DirichletProcess` and `BetaBinomial`: valid arguments never raise -/

set_option linter.unusedSectionVars false
set_option linter.unusedSimpArgs false

namespace Verif
open Spec
variable {K : Type} [Field K] [LinearOrder K] [IsStrictOrderedRing K] {ω : Oracle K}

/-- A `wp` statement that excludes exceptions gives a result. -/
theorem wp_total {σ α : Type} {m : M K σ α} {Q : α → σ × ℕ → Prop} {s : σ × ℕ}
    (h : wp ω m Q (fun _ _ => False) s) : ∃ r t, m ω s = (.ok r, t) ∧ Q r t := by
  unfold wp at h
  revert h
  rcases m ω s with ⟨e | a, t⟩
  · exact False.elim
  · exact fun h => ⟨a, t, rfl, h⟩

namespace DP
variable {s : DP K × ℕ}
theorem complete_ok (ha : 0 < s.1.alpha) {size : PySize} {n : ℤ} (hn : size.toInt? = some n) :
    wp ω (complete size) (fun _ _ => True) (fun _ _ => False) s := by
  unfold complete
  rw [checkSize_ok hn, hn]
  wp_simp
  refine ⟨fun _ _ => ⟨fun hlt => ⟨fun hb => ?_, fun _ _ _ => trivial⟩, fun _ => trivial⟩, nofun⟩
  rcases hb with hb | hb | hb
  · linarith [zero_lt_one (α := K)]
  · linarith
  · omega
end DP

namespace BBin
/-- Legal hyper-parameters, sticks in the unit interval, as many binomials as sticks (or one more, after a draw with labels). -/
structure BInv (s : BBin K) : Prop where
  n0 : 0 ≤ s.n
  alpha : 0 < s.alpha
  unit : Unit01 s.v
  aligned : s.v = [] ∨ s.binomials.length = s.v.length ∨ s.binomials.length = s.v.length + 1

variable {s : BBin K × ℕ}

/-- The parameters of the Beta draw after a binomial `0 ≤ z ≤ n`. -/
theorem beta_params {n z : ℤ} {alpha : K} (h0 : 0 ≤ z) (h1 : z ≤ n) (ha : 0 < alpha) :
    0 < 1 + (z : K) ∧ 0 < alpha + (n : K) - (z : K) := by
  have h0' : (0 : K) ≤ (z : K) := by exact_mod_cast h0
  have h1' : (z : K) ≤ (n : K) := by exact_mod_cast h1
  constructor <;> linarith

theorem getLast_unit {v : List K} (hv : Unit01 v) (hne : v ≠ []) : ∃ x, Py.index v (-1) = .ok x ∧ 0 ≤ x ∧ x ≤ 1 := by
  have hl := List.length_pos_of_ne_nil hne
  have h2 : ∃ x, Py.index v (-1) = .ok x := by
    unfold Py.index
    have : ¬ ((0 : ℤ) ≤ -1) := by omega
    have e : (v.length : ℤ) + -1 = ((v.length - 1 : ℕ) : ℤ) := by omega
    simp only [this, if_false, e]
    rw [if_neg (by omega), Int.toNat_natCast, List.getElem?_eq_getElem (by omega)]
    exact ⟨_, rfl⟩
  obtain ⟨x, hx⟩ := h2
  exact ⟨x, hx, hv _ (index_mem hx)⟩

theorem growOne_ok (hω : ω.Legal) (h : BInv s.1) (hne : s.1.v ≠ []) :
    wp ω growOne (fun _ t => BInv t.1 ∧ t.1.v ≠ []) (fun _ _ => False) s := by
  obtain ⟨x, hx, hx0, hx1⟩ := getLast_unit h.unit hne
  have hn := h.n0
  unfold growOne
  rw [wp_bind, wp_self, hx]
  wp_simp
  refine ⟨fun vl hvl => ?_, nofun⟩
  cases hvl
  refine ⟨fun hb => ?_, fun _ _ _ => ?_⟩
  · rcases hb with hb | hb | hb
    · omega
    · linarith
    · linarith
  · have hp := beta_params (alpha := s.1.alpha) (hω.binom_nonneg s.2 s.1.n x hn) (hω.binom_le s.2 s.1.n x hn) h.alpha
    refine ⟨fun hb => ?_, fun _ _ => ⟨⟨hn, h.alpha, ?_, ?_⟩, ?_⟩⟩
    · rcases hb with hb | hb <;> linarith [hp.1, hp.2]
    · exact Unit01.append h.unit (Unit01.single ⟨hω.beta_nonneg _ _ _, hω.beta_le_one _ _ _⟩)
    · right
      simp only [List.length_append, List.length_singleton]
      rcases h.aligned with h | h | h
      · exact absurd h hne
      · left; omega
      · right; omega
    · simp

theorem grow_ok (hω : ω.Legal) (k : ℕ) (s : BBin K × ℕ) (h : BInv s.1) (hne : s.1.v ≠ []) :
    wp ω (grow k) (fun _ t => BInv t.1 ∧ t.1.v ≠ []) (fun _ _ => False) s := by
  induction k generalizing s with
  | zero => exact ⟨h, hne⟩
  | succ k ih =>
    unfold grow
    rw [wp_bind]
    exact wp_mono (growOne_ok hω h hne) (fun _ t ht => ih t ht.1 ht.2) (fun _ _ h => h)

/-- `complete` with a number never raises; other sizes raise `TypeError`; the invariant is kept in every case. -/
theorem complete_ok (hω : ω.Legal) (h : BInv s.1) (size : PySize) :
    wp ω (complete size) (fun _ t => BInv t.1 ∧ t.1.v ≠ []) (fun e t => BInv t.1 ∧ e = .typeError ∧ size.toInt? = none) s := by
  unfold complete
  rw [wp_bind, wp_lift]
  refine ⟨fun _ _ => ?_, fun e he => ⟨h, checkSize_err he, ?_⟩⟩
  swap
  · cases size <;> simp_all [BaseWeight.checkSize, PySize.toInt?]
  rw [wp_bind, wp_self, wp_bind]
  have hP : wp ω (M.whenM (s.1.v.length = 0) do
        let v0 ← M.beta 1 s.1.alpha
        let z ← M.binom s.1.n v0
        M.assign (fun s => { s with binomials := [z] })
        let nv ← M.beta (1 + (z : K)) (s.1.alpha + (s.1.n : K) - (z : K))
        M.assign (fun s => { s with v := [nv] }))
      (fun _ t => BInv t.1 ∧ t.1.v ≠ []) (fun _ _ => False) s := by
    have hn := h.n0
    wp_simp
    refine ⟨fun h0 => ⟨fun hb => ?_, fun _ _ => ⟨fun hb => ?_, fun _ _ _ => ?_⟩⟩, fun h0 => ⟨h, ?_⟩⟩
    · rcases hb with hb | hb
      · linarith [zero_lt_one (α := K)]
      · linarith [h.alpha]
    · rcases hb with hb | hb | hb
      · omega
      · linarith [hω.beta_nonneg s.2 1 s.1.alpha]
      · linarith [hω.beta_le_one s.2 1 s.1.alpha]
    · have hp := beta_params (alpha := s.1.alpha) (hω.binom_nonneg (s.2 + 1) s.1.n (ω.beta s.2 1 s.1.alpha) hn)
        (hω.binom_le (s.2 + 1) s.1.n (ω.beta s.2 1 s.1.alpha) hn) h.alpha
      refine ⟨fun hb => ?_, fun _ _ => ⟨⟨hn, h.alpha, ?_, ?_⟩, ?_⟩⟩
      · rcases hb with hb | hb <;> linarith [hp.1, hp.2]
      · exact Unit01.single ⟨hω.beta_nonneg _ _ _, hω.beta_le_one _ _ _⟩
      · exact .inr (.inl rfl)
      · simp
    · intro hc; rw [hc] at h0; exact h0 rfl
  refine wp_mono hP ?_ (fun _ _ h => h.elim)
  rintro _ s1 ⟨h1, hne⟩
  split
  · rename_i hn; exact ⟨h1, rfl, hn⟩
  · rw [wp_bind, wp_self, wp_bind]
    refine wp_mono (grow_ok hω _ s1 h1 hne) ?_ (fun _ _ h => h.elim)
    rintro _ s2 ⟨h2, hne2⟩
    wp_simp
    exact ⟨⟨h2.n0, h2.alpha, h2.unit, h2.aligned⟩, hne2⟩

/-- `random`: the possible exceptions are an undetermined size, a size of the wrong type, and negative labels. -/
theorem random_ok (hω : ω.Legal) (h : BInv s.1) (size : PySize) :
    wp ω (random size) (fun _ t => BInv t.1 ∧ t.1.v ≠ [])
      (fun _ t => BInv t.1 ∧ ((size = .none ∧ s.1.d = []) ∨ size = .other ∨ ¬ NonNegLabels s.1.d)) s := by
  unfold random
  rw [wp_bind, wp_self, wp_ite]
  refine ⟨fun hc => ⟨h, .inl ⟨hc.1, List.length_eq_zero_iff.1 hc.2⟩⟩, fun hnd => ?_⟩
  have hsz : ∀ sz, sz = (if size = .none then PySize.int 1 else size) → sz.toInt? = none → size = .other := by
    intro sz hsz hn
    subst hsz
    cases size <;> simp_all [PySize.toInt?]
  have hempty : BInv { s.1 with v := [] } := ⟨h.n0, h.alpha, Unit01.nil, .inl rfl⟩
  unfold randomSized
  rw [wp_bind, wp_assign, wp_bind, wp_self, wp_ite]
  refine ⟨fun h0 => ?_, fun h0 => ?_⟩
  · refine wp_mono (complete_ok hω (s := ({ s.1 with v := [] }, s.2)) hempty _) (fun _ _ h => h) ?_
    rintro _ t ⟨h1, _, h2⟩
    exact ⟨h1, .inr (.inl (hsz _ rfl h2))⟩
  · have hdn : s.1.d ≠ [] := by intro h; rw [h] at h0; exact h0 rfl
    unfold randomBinomials
    wp_simp
    have hn := h.n0
    have hα := h.alpha
    refine ⟨fun a hb => ?_, fun e he => ⟨hempty, .inr (.inr ?_)⟩⟩
    swap
    · intro hl
      obtain ⟨a, ha, _⟩ := bincount_ok hl
      rw [ha] at he; cases he
    have hB := IsBincount.of_ok hb
    have hane : a ≠ [] := hB.ne_nil hdn
    have hrl := revTails_length hane
    set ps : List (K × K) := List.zipWith (fun (a b : ℕ) => (1 + (a : K), s.1.alpha + (b : K))) (0 :: a) (0 :: revTails a)
      with hps
    set rv := M.betaValues ω s.2 ps with hrv
    set zs := rv.mapIdx (fun i p => ω.binom (s.2 + ps.length + i) s.1.n p) with hzs
    have hrvl : rv.length = a.length + 1 := by simp [hrv, hps, hrl]
    have hzl : zs.length = a.length + 1 := by simp [hzs, hrvl]
    have hz : ∀ z ∈ zs, 0 ≤ z ∧ z ≤ s.1.n := by
      intro z hz
      rw [hzs, List.mem_mapIdx] at hz
      obtain ⟨i, hi, rfl⟩ := hz
      exact ⟨hω.binom_nonneg _ _ _ hn, hω.binom_le _ _ _ hn⟩
    refine ⟨?_, fun _ => ⟨?_, fun _ _ => ⟨fun a' hb' => ?_, ?_⟩⟩⟩
    · rintro ⟨p, hp, hb⟩
      exfalso
      rw [hps, List.mem_iff_getElem?] at hp
      obtain ⟨i, hi⟩ := hp
      rw [List.getElem?_zipWith] at hi
      split at hi
      · rename_i x y _ _
        cases hi
        have hx : (0 : K) ≤ (x : K) := Nat.cast_nonneg _
        have hy : (0 : K) ≤ (y : K) := Nat.cast_nonneg _
        rcases hb with hb | hb
        · simp only [] at hb; linarith
        · simp only [] at hb; linarith
      · cases hi
    · rintro (hb | ⟨p, hp, hb⟩)
      · omega
      · have := betaValues_unit01 hω s.2 ps p hp
        rcases hb with hb | hb <;> linarith [this.1, this.2]
    · rw [hb] at hb'; cases hb'
      have hpar : ∀ p ∈ params { s.1 with v := [], binomials := zs } a (revTails a), 0 < p.1 ∧ 0 < p.2 := by
        intro p hp
        simp only [params] at hp
        rw [List.mem_iff_getElem?] at hp
        obtain ⟨i, hi⟩ := hp
        rw [List.getElem?_zipWith] at hi
        split at hi
        · rename_i ab z _ hzz
          cases hi
          have hz2 : 0 ≤ z ∧ z ≤ 2 * s.1.n := by
            unfold phased at hzz
            rw [List.getElem?_zipWith] at hzz
            split at hzz
            · rename_i z1 z2 h1 h2
              cases hzz
              have m1 := hz z1 (List.dropLast_subset _ (List.mem_of_getElem? h1))
              have m2 := hz z2 (List.mem_of_mem_tail (List.mem_of_getElem? h2))
              omega
            · cases hzz
          have hx : (0 : K) ≤ (ab.1 : K) := Nat.cast_nonneg _
          have hy : (0 : K) ≤ (ab.2 : K) := Nat.cast_nonneg _
          have hz0 : (0 : K) ≤ (z : K) := by exact_mod_cast hz2.1
          have hz1 : (z : K) ≤ 2 * (s.1.n : K) := by exact_mod_cast hz2.2
          constructor
          · simp only []; linarith
          · simp only []; linarith
        · cases hi
      refine ⟨?_, fun _ => ?_⟩
      · rintro ⟨p, hp, hb⟩
        exfalso
        have := hpar p hp
        rcases hb with hb | hb <;> linarith [this.1, this.2]
      · generalize hv : M.betaValues ω _ (params _ a (revTails a)) = v
        have hvl : zs.length = v.length + 1 := by
          rw [← hv]
          simp only [M.betaValues_length, params, phased, List.length_zipWith, List.length_zip, List.length_dropLast,
            List.length_tail, hrl, hzl, Nat.min_self, Nat.add_sub_cancel]
        have hvu : Unit01 v := hv ▸ betaValues_unit01 hω _ _
        refine wp_mono (complete_ok hω (s := ({ s.1 with v := v, w := stickWeights v, binomials := zs }, _))
          ⟨hn, hα, hvu, .inr (.inr hvl)⟩ _) (fun _ _ h => h) ?_
        · rintro _ t ⟨h1, _, h2⟩
          exact ⟨h1, .inr (.inl (hsz _ rfl h2))⟩
    · intro e he
      rw [hb] at he; cases he

theorem binv_stable (hω : ω.Legal) : (core : WeightCore K).Stable ω (fun s : BBin K => BInv s) where
  setD := fun _ _ h => ⟨h.n0, h.alpha, h.unit, h.aligned⟩
  random := fun n => (KeepsR.of_wp (R := fun _ => True) fun _ hs =>
    wp_mono (random_ok hω hs n) (fun _ _ h => ⟨h.1, trivial⟩) (fun _ _ h => h.1)).keeps
  complete := fun n => (KeepsR.bind (R' := fun _ => True) (KeepsR.of_wp (R := fun _ => True) fun _ hs =>
    wp_mono (complete_ok hω hs n) (fun _ _ h => ⟨h.1, trivial⟩) (fun _ _ h => h.1)) fun _ _ => KeepsR.pure trivial).keeps
end BBin
end Verif
