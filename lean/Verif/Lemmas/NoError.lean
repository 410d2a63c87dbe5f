import Verif.Lemmas.RandomPost

/-! # Valid arguments never raise: `PitmanYorProcess`, `GeometricProcess`, `BetaInBeta`, `BetaBinomial` -/

set_option linter.unusedSectionVars false
set_option linter.unusedSimpArgs false

namespace Verif
open Spec
variable {K : Type} [Field K] [LinearOrder K] [IsStrictOrderedRing K] {ω : Oracle K}

/-- A call `random(size)` with a usable size: a non-negative number, or `None` with labels fitted. -/
def GoodSize (d : List ℤ) (size : PySize) : Prop := (size = .none ∧ d ≠ []) ∨ ∃ n, size.toInt? = some n ∧ 0 ≤ n

theorem checkSize_ok {size : PySize} {n : ℤ} (h : size.toInt? = some n) : BaseWeight.checkSize size = .ok () := by
  cases size <;> simp_all [BaseWeight.checkSize, PySize.toInt?]

theorem nonNegLabels_sum {d : List ℤ} (h : NonNegLabels d) : 0 ≤ d.sum := by
  induction d with
  | nil => simp
  | cons x xs ih =>
    rw [List.sum_cons]
    have h1 := h x (by simp)
    have h2 := ih fun y hy => h y (by simp [hy])
    omega

namespace PY
variable {s : PY K × ℕ}

theorem priorParams_pos {s : PY K} (h0 : 0 ≤ s.pyd) (h1 : s.pyd < 1) (ha : 0 < s.alpha) {i n : ℤ} (hi : 0 ≤ i) :
    ∀ p ∈ s.priorParams (Py.arange i n), 0 < p.1 ∧ 0 < p.2 := by
  intro p hp
  simp only [priorParams, Py.arange, List.mem_map] at hp
  obtain ⟨j, ⟨k, _, rfl⟩, rfl⟩ := hp
  have : (0 : K) ≤ ((i + (k : ℤ) : ℤ) : K) := by exact_mod_cast (by omega : 0 ≤ i + (k : ℤ))
  have := mul_nonneg this h0
  constructor
  · simp only []; linarith
  · simp only []; linarith

theorem params_pos {s : PY K} (h0 : 0 ≤ s.pyd) (h1 : s.pyd < 1) (ha : 0 < s.alpha) (c e : List ℕ) :
    ∀ p ∈ s.params c e, 0 < p.1 ∧ 0 < p.2 := by
  intro p hp
  unfold params at hp
  rw [List.mem_iff_getElem?] at hp
  obtain ⟨i, hi⟩ := hp
  rw [List.getElem?_zipWith] at hi
  split at hi
  · rename_i j ab hj _
    cases hi
    simp only [Py.arange, List.getElem?_map] at hj
    have hj0 : (0 : K) ≤ ((j : ℤ) : K) := by
      cases hk : (List.range ((c.length : ℤ) - 0).toNat)[i]? with
      | none => rw [hk] at hj; cases hj
      | some k => rw [hk] at hj; simp at hj; rw [← hj]; simp
    have := mul_nonneg hj0 h0
    have ha' : (0 : K) ≤ (ab.1 : K) := Nat.cast_nonneg _
    have hb' : (0 : K) ≤ (ab.2 : K) := Nat.cast_nonneg _
    constructor
    · simp only []; linarith
    · simp only []; linarith
  · cases hi

theorem complete_ok (h0 : 0 ≤ s.1.pyd) (h1 : s.1.pyd < 1) (ha : 0 < s.1.alpha) {size : PySize} {n : ℤ}
    (hn : size.toInt? = some n) : wp ω (complete size) (fun _ _ => True) (fun _ _ => False) s := by
  unfold complete
  rw [checkSize_ok hn, hn]
  wp_simp
  refine ⟨fun _ _ => ⟨fun _ => ⟨?_, fun _ => trivial⟩, fun _ => trivial⟩, nofun⟩
  rintro ⟨p, hp, h⟩
  have := priorParams_pos h0 h1 ha (by omega) p hp
  rcases h with h | h
  · exact absurd this.1 (not_lt.2 h)
  · exact absurd this.2 (not_lt.2 h)

theorem random_ok (h0 : 0 ≤ s.1.pyd) (h1 : s.1.pyd < 1) (ha : 0 < s.1.alpha) {size : PySize}
    (hd : NonNegLabels s.1.d) (hs : GoodSize s.1.d size) :
    wp ω (random size) (fun _ _ => True) (fun _ _ => False) s := by
  have hbad : ∀ (c e : List ℕ), ¬ ∃ p ∈ s.1.params c e, p.1 ≤ 0 ∨ p.2 ≤ 0 := by
    rintro c e ⟨p, hp, h⟩
    have := params_pos h0 h1 ha c e p hp
    rcases h with h | h
    · exact absurd this.1 (not_lt.2 h)
    · exact absurd this.2 (not_lt.2 h)
  unfold random
  rw [wp_bind, wp_self, wp_ite]
  refine ⟨fun h => ?_, fun hnd => ?_⟩
  · rcases hs with ⟨_, h'⟩ | ⟨n, hn, _⟩
    · exact h' (List.length_eq_zero_iff.1 h.2)
    · rw [h.1] at hn; cases hn
  rw [wp_ite]
  refine ⟨fun hl => ?_, fun hl => ?_⟩
  · rcases hs with ⟨rfl, _⟩ | ⟨n, hn, hpos⟩
    · exact absurd ⟨rfl, hl⟩ hnd
    · rw [hn]
      wp_simp
      refine ⟨fun h => ?_, fun _ => ⟨?_, fun _ => trivial⟩⟩
      · rcases h with h | h
        · linarith
        · omega
      · rintro ⟨p, hp, h⟩
        have := priorParams_pos h0 h1 ha (by omega) p hp
        rcases h with h | h
        · exact absurd this.1 (not_lt.2 h)
        · exact absurd this.2 (not_lt.2 h)
  · obtain ⟨a, hb, hB⟩ := bincount_ok hd
    rw [hb]
    unfold drawSticks
    rcases hs with ⟨rfl, _⟩ | ⟨n, hn, hpos⟩
    · wp_simp
      exact ⟨fun a' h' => ⟨fun h => hbad _ _ h, fun _ => ⟨fun h => absurd rfl h, fun _ => trivial⟩⟩, nofun⟩
    · have hc : ∀ (v w : List K) (p : ℕ),
          wp ω (complete size) (fun _ _ => True) (fun _ _ => False) ({ s.1 with v := v, w := w }, p) :=
        fun v w p => complete_ok (s := ({ s.1 with v := v, w := w }, p)) h0 h1 ha hn
      cases size with
      | none => cases hn
      | other => cases hn
      | int k =>
        wp_simp
        exact ⟨fun a' h' => ⟨fun _ => ⟨fun h => hbad _ _ h, fun _ => ⟨fun _ => hc _ _ _, fun _ => trivial⟩⟩,
          fun _ => ⟨fun h => hbad _ _ h, fun _ => ⟨fun _ => hc _ _ _, fun _ => trivial⟩⟩⟩, nofun⟩
      | np k =>
        wp_simp
        exact ⟨fun a' h' => ⟨fun _ => ⟨fun h => hbad _ _ h, fun _ => ⟨fun _ => hc _ _ _, fun _ => trivial⟩⟩,
          fun _ => ⟨fun h => hbad _ _ h, fun _ => ⟨fun _ => hc _ _ _, fun _ => trivial⟩⟩⟩, nofun⟩
end PY

namespace Geo
variable {s : Geo K × ℕ}

theorem complete_ok {size : PySize} {n : ℤ}
    (hn : size.toInt? = some n) : wp ω (complete size) (fun _ _ => True) (fun _ _ => False) s := by
  unfold complete
  rw [checkSize_ok hn, hn]
  wp_simp
  refine ⟨fun _ _ => ⟨fun _ => ⟨fun _ _ => trivial, ?_⟩, fun _ => trivial⟩, nofun⟩
  intro x hx
  unfold Py.repeatScalar at hx
  rw [if_neg (by omega)] at hx
  cases hx

theorem random_ok (ha : 0 < s.1.a) (hb : 0 < s.1.b) {size : PySize} (hd : NonNegLabels s.1.d)
    (hs : GoodSize s.1.d size) : wp ω (random size) (fun _ _ => True) (fun _ _ => False) s := by
  unfold random
  rw [wp_bind, wp_self, wp_ite]
  refine ⟨fun h => ?_, fun hnd => ?_⟩
  · rcases hs with ⟨_, h'⟩ | ⟨n, hn, _⟩
    · exact h' (List.length_eq_zero_iff.1 h.2)
    · rw [h.1] at hn; cases hn
  have hr : ∃ sz n, resolveSize s.1.d size = .ok sz ∧ sz.toInt? = some n := by
    rcases hs with ⟨rfl, h'⟩ | ⟨n, hn, _⟩
    · obtain ⟨m, hm, _⟩ := maxInt_ok h'
      exact ⟨.np (m + 1), m + 1, by simp [resolveSize, hm], rfl⟩
    · refine ⟨size, n, ?_, hn⟩
      cases size <;> simp_all [resolveSize, PySize.toInt?]
  obtain ⟨sz, n, hr, hn⟩ := hr
  rw [hr]
  wp_simp
  refine ⟨fun sz' h' => ?_, nofun⟩
  cases h'
  have h1 : (0 : K) ≤ (s.1.d.length : K) := Nat.cast_nonneg _
  have h2 : (0 : K) ≤ ((s.1.d.sum : ℤ) : K) := by exact_mod_cast nonNegLabels_sum hd
  refine ⟨fun h => ?_, fun _ _ => complete_ok hn⟩
  rcases h with h | h <;> linarith
end Geo

namespace BIB
variable {s : BIB K × ℕ}

/-- Hyper-parameters for which every draw is legal. -/
structure Valid (s : BIB K) : Prop where
  x0 : 0 ≤ s.x
  x1 : s.x ≤ 1
  alpha : 0 < s.alpha
  a : 0 < s.a
  b : 0 < s.b
  p0 : 0 ≤ s.p
  p1 : s.p ≤ 1
  method : (s.pMethod ≠ .rejectionSampling ∨ s.x = 0 ∨ s.x = 1) ∧ s.pMethod ≠ .unknown
  labels : NonNegLabels s.d

theorem geoParams_pos {s : BIB K} (h : Valid s) : 0 < s.a + (s.d.length : K) ∧ 0 < s.b + ((s.d.sum : ℤ) : K) := by
  have h1 : (0 : K) ≤ (s.d.length : K) := Nat.cast_nonneg _
  have h2 : (0 : K) ≤ ((s.d.sum : ℤ) : K) := by exact_mod_cast nonNegLabels_sum h.labels
  have := h.a
  have := h.b
  constructor <;> linarith

theorem randomP_ok (hω : ω.Legal) (h : Valid s.1) :
    wp ω randomP (fun _ t => t.1 = { s.1 with p := t.1.p } ∧ Valid t.1) (fun _ _ => False) s := by
  have hg := geoParams_pos h
  have hnew : ∀ i a b, Valid { s.1 with p := ω.beta i a b } := fun i a b =>
    { h with p0 := hω.beta_nonneg _ _ _, p1 := hω.beta_le_one _ _ _ }
  have hopt : ∀ i v ps, Valid { s.1 with p := (ω.optim i v ps).getD s.1.p } := by
    intro i v ps
    cases ho : ω.optim i v ps with
    | none => exact h
    | some p => exact { h with p0 := (hω.optim_mem i v ps p ho).1, p1 := (hω.optim_mem i v ps p ho).2 }
  have hbad1 : ¬ (s.1.a + (s.1.d.length : K) ≤ 0 ∨ s.1.b + ((s.1.d.sum : ℤ) : K) ≤ 0) := by
    push Not; exact hg
  have hbad2 : ¬ (s.1.a ≤ 0 ∨ s.1.b ≤ 0) := by
    push Not; exact ⟨h.a, h.b⟩
  unfold randomP drawGeometricP drawPriorP
  wp_simp
  refine ⟨fun _ => ⟨fun hb => hbad1 hb, fun _ _ => ⟨rf, hnew _ _ _⟩⟩, fun hx1 => ⟨fun _ => ⟨trivial, h⟩, fun hx0 =>
    ⟨fun _ => ⟨fun hb => hbad2 hb, fun _ _ => ⟨rf, hnew _ _ _⟩⟩, fun _ => ?_⟩⟩⟩
  have hm := h.method
  split
  · exact ⟨rfl, h⟩
  · wp_simp
    exact ⟨fun hb => hbad2 hb, fun _ _ => ⟨rf, hnew _ _ _⟩⟩
  · wp_simp
    exact ⟨fun hb => hbad1 hb, fun _ _ => ⟨rf, hnew _ _ _⟩⟩
  · wp_simp
    exact ⟨rf, hopt _ _ _⟩
  · wp_simp
    exact ⟨fun hb => by omega, fun _ => ⟨rf, hopt _ _ _⟩⟩
  · rename_i heq; rcases hm.1 with h1 | h1 | h1
    exacts [absurd heq h1, absurd h1 hx0, absurd h1 hx1]
  · rename_i heq; exact absurd heq hm.2

theorem prior_pos {s : BIB K} (h : Valid s) (hx : s.x < 1) : 0 < s.priorA ∧ 0 < s.priorB := by
  have h1 : 0 ≤ s.x / (1 - s.x) := div_nonneg h.x0 (by linarith)
  have h2 := mul_nonneg h1 h.p0
  have h3 := mul_nonneg h1 (by linarith [h.p1] : 0 ≤ 1 - s.p)
  have := h.alpha
  unfold priorA priorB
  constructor <;> linarith

theorem complete_ok (hω : ω.Legal) (h : Valid s.1) {size : PySize} {n : ℤ} (hn : size.toInt? = some n) :
    wp ω (complete size) (fun _ _ => True) (fun _ _ => False) s := by
  unfold complete
  rw [checkSize_ok hn, hn]
  rw [wp_bind, wp_lift]
  refine ⟨fun _ _ => ?_, nofun⟩
  rw [wp_bind, wp_self, wp_bind]
  have hP : wp ω (M.whenM (s.1.v.length ≠ 0) randomP) (fun _ t => Valid t.1) (fun _ _ => False) s := by
    rw [wp_whenM]
    exact ⟨fun _ => wp_mono (randomP_ok hω h) (fun _ _ h => h.2) (fun _ _ h => h), fun _ => h⟩
  refine wp_mono hP ?_ (fun _ _ h => h)
  intro _ s1 h1
  unfold newSticks
  wp_simp
  refine ⟨fun hlt => ⟨fun hx => ⟨fun hb => ?_, fun _ _ _ => trivial⟩, fun _ => ⟨fun _ _ => trivial, ?_⟩⟩, fun _ => trivial⟩
  · have := prior_pos h1 hx
    rcases hb with hb | hb | hb
    · linarith
    · linarith
    · omega
  · intro x hx
    unfold Py.repeatScalar at hx
    rw [if_neg (by omega)] at hx
    cases hx

theorem random_ok (hω : ω.Legal) (h : Valid s.1) {size : PySize} (hs : GoodSize s.1.d size) :
    wp ω (random size) (fun _ _ => True) (fun _ _ => False) s := by
  unfold random
  rw [wp_bind, wp_self, wp_ite]
  refine ⟨fun h => ?_, fun hnd => ?_⟩
  · rcases hs with ⟨_, h'⟩ | ⟨n, hn, _⟩
    · exact h' (List.length_eq_zero_iff.1 h.2)
    · rw [h.1] at hn; cases hn
  rw [wp_bind, wp_assign, wp_ite]
  refine ⟨fun hl => ?_, fun hl => ?_⟩
  · rcases hs with ⟨rfl, h'⟩ | ⟨n, hn, _⟩
    · exact absurd ⟨rfl, hl⟩ hnd
    · exact complete_ok hω (s := ({ s.1 with v := [] }, s.2)) { h with } hn
  · rw [wp_bind]
    have hP : wp ω (M.whenM (0 < s.1.x) randomP) (fun _ t => Valid t.1 ∧ t.1.d = s.1.d) (fun _ _ => False)
        ({ s.1 with v := [] }, s.2) := by
      rw [wp_whenM]
      exact ⟨fun _ => wp_mono (randomP_ok hω (s := ({ s.1 with v := [] }, s.2)) { h with })
        (fun _ t h => ⟨h.2, by rw [h.1]⟩) (fun _ _ h => h), fun _ => ⟨{ h with }, rfl⟩⟩
    refine wp_mono hP ?_ (fun _ _ h => h)
    rintro _ s1 ⟨h1, hd1⟩
    obtain ⟨a, hb, hB⟩ := bincount_ok h.labels
    rw [hb, wp_bind, wp_lift]
    refine ⟨fun a' h' => ?_, nofun⟩
    cases h'
    have hmain : ∀ (sz : PySize) (n : ℤ), sz.toInt? = some n → 0 ≤ n →
        wp ω (randomFitted a (revTails a) sz n) (fun _ _ => True) (fun _ _ => False) s1 := by
      intro sz n hn hpos
      unfold randomFitted fittedSticks
      rw [wp_bind, wp_self, wp_bind, wp_ite]
      have hc : ∀ v p, wp ω (do
            M.assign (fun s => { s with v := v, w := stickWeights v })
            complete sz) (fun _ _ => True) (fun _ _ => False) (s1.1, p) := by
        intro v p
        rw [wp_bind, wp_assign]
        exact complete_ok hω (s := ({ s1.1 with v := v, w := stickWeights v }, p)) { h1 with } hn
      refine ⟨fun hx => ?_, fun _ => ?_⟩
      · rw [wp_betaVec]
        refine ⟨?_, fun _ => hc _ _⟩
        rintro ⟨p, hp, h⟩
        have hpos := prior_pos h1 hx
        simp only [params] at hp
        rw [List.mem_iff_getElem?] at hp
        obtain ⟨i, hi⟩ := hp
        rw [List.getElem?_zipWith] at hi
        split at hi
        · rename_i x y _ _
          cases hi
          have hx' : (0 : K) ≤ (x : K) := Nat.cast_nonneg _
          have hy' : (0 : K) ≤ (y : K) := Nat.cast_nonneg _
          rcases h with h | h
          · simp only [] at h; linarith
          · simp only [] at h; linarith
        · cases hi
      · rw [wp_lift]
        refine ⟨fun v _ => hc _ _, ?_⟩
        intro x hx
        unfold Py.repeatScalar at hx
        rw [if_neg (by omega)] at hx
        cases hx
    rcases hs with ⟨rfl, h'⟩ | ⟨n, hn, hn0⟩
    · exact hmain _ _ rfl (by omega)
    · cases size with
      | none => cases hn
      | other => cases hn
      | int k => cases hn; exact hmain _ _ rfl hn0
      | np k => cases hn; exact hmain _ _ rfl hn0
end BIB
end Verif
