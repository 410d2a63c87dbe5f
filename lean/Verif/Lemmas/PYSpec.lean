import Verif.Lemmas.NoErrorBB
import Verif.Lemmas.DP

/-! # Closed form of `PitmanYorProcess.random` -/

set_option linter.unusedSectionVars false
set_option linter.unusedSimpArgs false

namespace Verif
open Spec
variable {K : Type} [Field K] [LinearOrder K] [IsStrictOrderedRing K] {ω : Oracle K}

namespace PY

/-- Beta parameters the code uses for stick `j`. -/
def post (s : PY K) (j : ℕ) : K × K :=
  (1 - s.pyd + (nEq s.d j : K), s.alpha + (j : K) * s.pyd + (nGt s.d j : K))

theorem priorParams_map (s : PY K) (i k : ℕ) :
    s.priorParams (Py.arange i (i + k : ℕ)) =
      (List.range k).map (fun j => (1 - s.pyd, s.alpha + ((i + j : ℕ) : K) * s.pyd)) := by
  have : (((i + k : ℕ) : ℤ) - (i : ℤ)).toNat = k := by omega
  simp only [priorParams, Py.arange, this, List.map_map]
  apply List.map_congr_left
  intro j _
  simp

theorem params_getElem? (s : PY K) (a b : List ℕ) (hl : b.length = a.length) (j : ℕ) :
    (s.params a b)[j]? = match a[j]?, b[j]? with
      | some x, some y => some (1 - s.pyd + (x : K), s.alpha + (j : K) * s.pyd + (y : K))
      | _, _ => none := by
  unfold params
  rw [List.getElem?_zipWith, List.zip, List.getElem?_zipWith]
  by_cases h : j < a.length
  · have hb : j < b.length := by omega
    rw [List.getElem?_eq_getElem h, List.getElem?_eq_getElem hb]
    simp [Py.arange, h]
  · rw [List.getElem?_eq_none (by omega : a.length ≤ j), List.getElem?_eq_none (by omega : b.length ≤ j)]
    simp

theorem params_map (s : PY K) {a : List ℕ} (hA : IsBincount s.d a) (hne : a ≠ []) (N : ℕ) (hN : N ≤ a.length) :
    s.params (a.take N) ((revTails a).take N) = (List.range N).map s.post := by
  have hl := revTails_length hne
  apply List.ext_getElem?
  intro j
  rw [params_getElem? _ _ _ (by simp [hl])]
  by_cases h : j < N
  · rw [List.getElem?_take_of_lt h, List.getElem?_take_of_lt h, hA.getElem? j, if_pos (by omega),
      hA.revTails_get j (by omega)]
    simp [h, post]
  · simp [h, List.getElem?_take]

theorem post_pos {s : PY K} (h0 : 0 ≤ s.pyd) (h1 : s.pyd < 1) (ha : 0 < s.alpha) (j : ℕ) :
    0 < (s.post j).1 ∧ 0 < (s.post j).2 := by
  have e1 : (0 : K) ≤ (nEq s.d j : K) := Nat.cast_nonneg _
  have e2 : (0 : K) ≤ (nGt s.d j : K) := Nat.cast_nonneg _
  have e3 : (0 : K) ≤ (j : K) * s.pyd := mul_nonneg (Nat.cast_nonneg _) h0
  simp only [post]
  constructor <;> linarith

/-- The number of weights asked for. -/
def Req (d : List ℤ) (size : PySize) (N : ℕ) : Prop :=
  (size.toInt? = some (N : ℤ) ∧ 1 ≤ N) ∨ (size = .none ∧ IsMaxLabel d ((N : ℤ) - 1))

theorem complete_spec (s : PY K) (pos : ℕ) {size : PySize} {n : ℕ} (hn : size.toInt? = some (n : ℤ))
    (h0 : 0 ≤ s.pyd) (h1 : s.pyd < 1) (ha : 0 < s.alpha) (hw : s.w = stickWeights s.v) :
    wp ω (complete size) (fun r t => t.1 = { s with v := t.1.v, w := stickWeights t.1.v } ∧ r = stickWeights t.1.v ∧
        t.1.v = s.v ++ M.betaValues ω pos ((List.range (n - s.v.length)).map
          (fun j => (1 - s.pyd, s.alpha + ((s.v.length + j : ℕ) : K) * s.pyd))) ∧
        t.2 = pos + (n - s.v.length)) (fun _ _ => False) (s, pos) := by
  have hl : s.w.length = s.v.length := by rw [hw, stickWeights_length]
  unfold complete
  rw [checkSize_ok hn, hn]
  wp_simp
  rw [hl]
  refine ⟨fun _ _ => ⟨fun hlt => ?_, fun hge => ?_⟩, nofun⟩
  · have hp := priorParams_map s s.v.length (n - s.v.length)
    rw [show s.v.length + (n - s.v.length) = n by omega] at hp
    rw [hp]
    refine ⟨?_, fun _ => ?_⟩
    · rintro ⟨p, hp', h⟩
      have := priorParams_pos (s := s) h0 h1 ha (i := s.v.length) (n := n) (by omega) p (by rw [hp]; exact hp')
      rcases h with h | h <;> linarith
    · refine ⟨rf, rf, ?_, ?_⟩ <;> simp
  · have : n - s.v.length = 0 := by omega
    rw [this]
    refine ⟨?_, hw, by simp [M.betaValues], rfl⟩
    rw [← hw]

theorem random_spec (s : PY K) (pos : ℕ) {size : PySize} {N : ℕ} (h0 : 0 ≤ s.pyd) (h1 : s.pyd < 1)
    (ha : 0 < s.alpha) (hd : NonNegLabels s.d) (hN : Req s.d size N) :
    wp ω (random size) (fun r t => t.1 = { s with v := t.1.v, w := stickWeights t.1.v } ∧ r = stickWeights t.1.v ∧
        t.1.v = M.betaValues ω pos ((List.range N).map s.post) ∧ t.2 = pos + N) (fun _ _ => False) (s, pos) := by
  have hN0 : 1 ≤ N := by
    rcases hN with ⟨_, h⟩ | ⟨_, h⟩
    · exact h
    · have := hd _ h.1
      omega
  have hmono : ∀ N' : ℕ, ¬ ∃ p ∈ (List.range N').map s.post, p.1 ≤ 0 ∨ p.2 ≤ 0 := by
    rintro N' ⟨p, hp, h⟩
    obtain ⟨j, _, rfl⟩ := List.mem_map.1 hp
    have := post_pos h0 h1 ha j
    rcases h with h | h <;> linarith
  unfold random
  rw [wp_bind, wp_self, wp_ite]
  refine ⟨?_, fun _ => ?_⟩
  · rintro ⟨rfl, hl⟩
    rcases hN with ⟨h, _⟩ | ⟨_, h⟩
    · cases h
    · rw [List.length_eq_zero_iff.1 hl] at h
      exact absurd h.1 (by simp)
  rw [wp_ite]
  refine ⟨fun hnil => ?_, fun hnil => ?_⟩
  · have hnil' := List.length_eq_zero_iff.1 hnil
    have hn : size.toInt? = some (N : ℤ) := by
      rcases hN with ⟨h, _⟩ | ⟨_, h⟩
      · exact h
      · rw [hnil'] at h; exact absurd h.1 (by simp)
    rw [hn]
    wp_simp
    refine ⟨fun h => ?_, fun _ => ?_⟩
    · rcases h with h | h
      · linarith
      · omega
    have hp' : s.priorParams (Py.arange 0 (N : ℤ)) = (List.range N).map s.post := by
      have := priorParams_map s 0 N
      simp only [Nat.cast_zero, zero_add] at this
      rw [this]
      apply List.map_congr_left
      intro j _
      have hnil'' : s.d = [] := hnil'
      simp [post, hnil'', nEq, nGt]
    rw [hp']
    exact ⟨hmono N, fun _ => ⟨rf, rf, rf, by simp⟩⟩
  · have hnil' : s.d ≠ [] := fun h => hnil (by rw [h]; rfl)
    obtain ⟨a, hb, hA⟩ := bincount_ok hd
    have hane := hA.ne_nil hnil'
    have hmax := hA.max hnil'
    have hlr := revTails_length hane
    rw [hb]
    have hfull : s.params a (revTails a) = (List.range a.length).map s.post := by
      have := params_map s hA hane a.length le_rfl
      rwa [List.take_length, List.take_of_length_le hlr.le] at this
    -- the draw of `k ≤ len(a)` sticks followed by `complete`
    have hcomp : ∀ k : ℕ, size.toInt? = some (N : ℤ) → size ≠ .none → k ≤ N → (k = N ∨ k = a.length) →
        wp ω (do
            M.assign (fun u => { u with v := M.betaValues ω pos ((List.range k).map s.post), w := stickWeights (M.betaValues ω pos ((List.range k).map s.post)) })
            M.whenM (size ≠ .none) do
              let _ ← complete size
            let u ← M.self
            pure u.w : M K (PY K) (List K)) (fun r t => t.1 = { s with v := t.1.v, w := stickWeights t.1.v } ∧ r = stickWeights t.1.v ∧
        t.1.v = M.betaValues ω pos ((List.range N).map s.post) ∧ t.2 = pos + N) (fun _ _ => False) (s, pos + k) := by
      intro k hn hsz hk hk'
      rw [wp_bind, wp_assign, wp_bind, wp_whenM]
      refine ⟨fun _ => ?_, fun h => absurd hsz h⟩
      rw [wp_bind]
      refine wp_mono (complete_spec (⟨s.pyd, s.alpha, M.betaValues ω pos ((List.range k).map s.post),
        stickWeights (M.betaValues ω pos ((List.range k).map s.post)), s.d⟩) (pos + k) hn h0 h1 ha rfl) ?_ (fun _ _ h => h)
      rintro r t ⟨e1, e2, e3, e4⟩
      have hfin : t.1.v = M.betaValues ω pos ((List.range N).map s.post) := by
        rw [e3]
        simp only [M.betaValues_length, List.length_map, List.length_range]
        have hsplit : (List.range N).map s.post = (List.range k).map s.post ++ (List.range (N - k)).map
            (fun j => (1 - s.pyd, s.alpha + ((k + j : ℕ) : K) * s.pyd)) := by
          have e : N = k + (N - k) := by omega
          conv_lhs => rw [e, List.range_add, List.map_append, List.map_map]
          congr 1
          apply List.map_congr_left
          intro j hj
          rw [List.mem_range] at hj
          rcases hk' with hk' | hk'
          · omega
          · simp only [Function.comp, post, nEq_eq_zero_of_gt hmax (j := k + j) (by omega),
              nGt_eq_zero_of_ge hmax (j := k + j) (by omega)]
            simp
        rw [hsplit, M.betaValues_append]
        simp
      have hw : t.1.w = stickWeights t.1.v := by rw [e1]
      wp_simp
      refine ⟨?_, hw, hfin, ?_⟩
      · rw [e1]
      · rw [e4]
        simp only [M.betaValues_length, List.length_map, List.length_range]
        omega
    unfold drawSticks
    rw [wp_bind, wp_lift]
    refine ⟨?_, nofun⟩
    intro a0 ha0; cases ha0
    rcases hN with ⟨hn, _⟩ | ⟨rfl, hN⟩
    · have hsz : size ≠ .none := by rintro rfl; cases hn
      by_cases hlt : N < a.length
      · have hsl : s.params (Py.sliceTo a N) (Py.sliceTo (revTails a) N) = (List.range N).map s.post := by
          rw [sliceTo_nonneg _ (by omega), sliceTo_nonneg _ (by omega), Int.toNat_natCast]
          exact params_map s hA hane N hlt.le
        have hlt' : (N : ℤ) < (a.length : ℤ) := by exact_mod_cast hlt
        have key : wp ω (M.betaVec ((List.range N).map s.post) >>= fun v => do
            M.assign (fun u => { u with v := v, w := stickWeights v })
            M.whenM (size ≠ .none) do
              let _ ← complete size
            let u ← M.self
            pure u.w) (fun r t => t.1 = { s with v := t.1.v, w := stickWeights t.1.v } ∧ r = stickWeights t.1.v ∧
        t.1.v = M.betaValues ω pos ((List.range N).map s.post) ∧ t.2 = pos + N) (fun _ _ => False) (s, pos) := by
          rw [wp_bind, wp_betaVec]
          refine ⟨hmono N, fun _ => ?_⟩
          have := hcomp N hn hsz le_rfl (.inl rfl)
          simpa using this
        cases size with
        | none => cases hn
        | other => cases hn
        | int m => cases hn; simp only [hlt', if_true, hsl]; exact key
        | np m => cases hn; simp only [hlt', if_true, hsl]; exact key
      · have hlt' : ¬ (N : ℤ) < (a.length : ℤ) := by exact_mod_cast hlt
        have key : wp ω (M.betaVec ((List.range a.length).map s.post) >>= fun v => do
            M.assign (fun u => { u with v := v, w := stickWeights v })
            M.whenM (size ≠ .none) do
              let _ ← complete size
            let u ← M.self
            pure u.w) (fun r t => t.1 = { s with v := t.1.v, w := stickWeights t.1.v } ∧ r = stickWeights t.1.v ∧
        t.1.v = M.betaValues ω pos ((List.range N).map s.post) ∧ t.2 = pos + N) (fun _ _ => False) (s, pos) := by
          rw [wp_bind, wp_betaVec]
          refine ⟨hmono _, fun _ => ?_⟩
          have := hcomp a.length hn hsz (by omega) (.inr rfl)
          simpa using this
        cases size with
        | none => cases hn
        | other => cases hn
        | int m => cases hn; simp only [hlt', if_false, hfull]; exact key
        | np m => cases hn; simp only [hlt', if_false, hfull]; exact key
    · have hl : N = a.length := by
        have := hmax.unique hN
        omega
      subst hl
      dsimp only
      rw [hfull]
      wp_simp
      exact ⟨hmono _, fun _ => ⟨fun h => absurd rfl h, fun _ => ⟨rf, rf, rf, by simp⟩⟩⟩
end PY
end Verif
