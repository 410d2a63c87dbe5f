import Verif.Props.C04
import Verif.Props.C19

/-!
# C18: `BetaBernoulli`: sticks change exactly where the Bernoulli path says so

`C18_random_partial`: without data, after every history without `random(0)`, `random(n)` (`n ≥ 1`) returns `n` weights; stick `j` is the Beta draw
whose number is the partial sum of the Bernoulli path up to `j`, so it repeats stick `j-1` where the path is 0 and is a new
draw where it is 1.  After `random(0)` the call fails (`C18_random_refuted`).

`C18_complete_partial`: `complete(n)` returns at least `n` weights, except for `complete(1)` on an object without sticks, which raises
(`C18_complete_refuted`).
-/

set_option linter.unusedSectionVars false

namespace Verif
open Spec
variable {K : Type} [Field K] [LinearOrder K] [IsStrictOrderedRing K] {ω : Oracle K}

theorem BBer.random_unfitted_ok (hω : ω.Legal) (s : BBer K × ℕ) (hp : 0 ≤ s.1.p ∧ s.1.p ≤ 1) (ha : 0 < s.1.alpha) (hd : s.1.d = [])
    (hne : s.1.bernoullis ≠ []) {n : ℕ} (hn : 1 ≤ n) {size : PySize} (hsz : size.toInt? = some (n : ℤ)) :
    wp ω (BBer.random size) (fun r t => IsStick t.1.v r ∧ r = t.1.w ∧ r.length = n ∧ t.1.bernoullis.length = n ∧ Bits t.1.bernoullis ∧
      (∀ j : ℕ, j < n → t.1.v[j]? = some (ω.beta (s.2 + n + (t.1.bernoullis.take (j + 1)).sum.toNat) 1 s.1.alpha)) ∧
      ∀ j : ℕ, t.1.bernoullis[j + 1]? = some 0 → t.1.v[j + 1]? = t.1.v[j]?) (fun _ _ => False) s := by
  have hl : s.1.d.length = 0 := by rw [hd]; rfl
  unfold BBer.random BBer.randomSized
  rw [wp_bind, wp_self, wp_ite]
  refine ⟨fun h => (by rw [h.1] at hsz; cases hsz), fun _ => ?_⟩
  rw [wp_bind, wp_assign, wp_bind, wp_self, if_pos hl, if_neg (by rintro rfl; cases hsz), hsz, wp_bind]
  unfold BBer.randomBernoullis
  rw [wp_bind, wp_self]
  dsimp only
  rw [wp_bind, wp_binomRep]
  refine ⟨fun h => ?_, fun _ _ _ _ => ?_⟩
  · rcases h with h | h | h | h
    · omega
    · exact absurd hp.1 (not_le.2 h)
    · exact absurd hp.2 (not_le.2 h)
    · omega
  have hbits := BBer.binomRep_bits hω s.2 n s.1.p
  rw [if_neg (fun h => hne (List.length_eq_zero_iff.1 h)), wp_bind, wp_assign, if_neg (by omega), wp_assign, wp_bind, wp_self]
  rw [show ((n : ℕ) : ℤ).toNat = n by omega]
  dsimp only
  generalize hb : (List.range n).map (fun i => ω.binom (s.2 + i) 1 s.1.p) = bern at hbits
  have hbl : bern.length = n := by rw [← hb]; simp
  have hbne : bern ≠ [] := by apply List.ne_nil_of_length_pos; omega
  rw [cumsum_last hbne, wp_bind, wp_lift]
  refine ⟨?_, nofun⟩
  rintro _ ⟨⟩
  have hmask := cumsum_bits hbits
  have hsum : 0 ≤ bern.sum := by
    obtain ⟨x, hx⟩ := List.exists_mem_of_length_pos (l := Py.cumsum bern) (by rw [cumsum_length]; omega)
    have := hmask x hx; omega
  rw [wp_bind, wp_betaRep]
  refine ⟨fun h => ?_, fun _ _ _ => ?_⟩
  · rcases h with h | h | h
    · linarith [zero_lt_one (α := K)]
    · linarith
    · omega
  rw [wp_bind, wp_assign, wp_bind, wp_lift]
  have hval : ∀ k : ℕ, k < (bern.sum + 1).toNat → (M.betaValues ω (s.2 + n) (List.replicate (bern.sum + 1).toNat (1, s.1.alpha)))[k]? =
      some (ω.beta (s.2 + n + k) 1 s.1.alpha) := by
    intro k hk
    rw [M.betaValues_getElem?, List.getElem?_replicate, if_pos hk]
    rfl
  refine ⟨fun v hv => ?_, fun e he => ?_⟩
  · have hvl := BBer.gather_length hv
    rw [cumsum_length, hbl] at hvl
    rw [wp_bind, wp_assign, wp_pure]
    refine ⟨stickWeights_isStick v, rfl, by rw [stickWeights_length, hvl], hbl, hbits, fun j hj => ?_, fun j hj => ?_⟩
    · have h1 := cumsum_getElem? bern j (by omega)
      have h2 := hmask _ (List.mem_of_getElem? h1)
      show v[j]? = _
      rw [gather_get hv j h1 h2.1, hval _ (by omega)]
    · obtain ⟨m, h1, h2⟩ := cumsum_succ bern j hj
      have h0 := hmask _ (List.mem_of_getElem? h1)
      rw [add_zero] at h2
      show v[j + 1]? = v[j]?
      rw [gather_get hv j h1 h0.1, gather_get hv (j + 1) h2 h0.1]
  · obtain ⟨xs, hxs⟩ := gather_ok (l := M.betaValues ω (s.2 + n) (List.replicate (bern.sum + 1).toNat (1, s.1.alpha))) (is := Py.cumsum bern) (by
      intro i hi
      have := hmask i hi
      rw [M.betaValues_length, List.length_replicate]
      omega)
    rw [hxs] at he; cases he

section
variable (log : K → K) (pos : ℕ) (ops : List (WOp K)) {p alpha : K}

/-- Missing: histories with a call `random(0)`. -/
theorem C18_random_partial (hω : ω.Legal) (hops : ∀ op ∈ ops, op.notRandomZero) (hp : 0 ≤ p ∧ p ≤ 1) (ha : 0 < alpha) {s : BBer K × ℕ}
    (hs : BBer.cls.run log ω (BBer.init p alpha, pos) ops = s) (hd : s.1.d = []) {n : ℕ} (hn : 1 ≤ n) {size : PySize}
    (hsz : size.toInt? = some (n : ℤ)) :
    ∃ r t, BBer.random size ω s = (.ok r, t) ∧ IsStick t.1.v r ∧ r = t.1.w ∧ r.length = n ∧ t.1.bernoullis.length = n ∧ Bits t.1.bernoullis ∧
      (∀ j : ℕ, j < n → t.1.v[j]? = some (ω.beta (s.2 + n + (t.1.bernoullis.take (j + 1)).sum.toNat) 1 alpha)) ∧
      ∀ j : ℕ, t.1.bernoullis[j + 1]? = some 0 → t.1.v[j + 1]? = t.1.v[j]? := by
  have hh := BBer.reach_hyper (ω := ω) log pos ops p alpha
  have hb := BBer.reach_bern (ω := ω) log pos p alpha ops hops
  rw [hs] at hh hb
  have := wp_total (BBer.random_unfitted_ok hω s (by rw [hh.1]; exact hp) (by rw [hh.2]; exact ha) hd hb hn hsz)
  rwa [hh.2] at this
end

/-- Missing: `complete(1)` on an object without sticks, and states with a stick but no weight for it. -/
theorem C18_complete_partial (hω : ω.Legal) (s : BBer K × ℕ) (hp : 0 ≤ s.1.p ∧ s.1.p ≤ 1) (ha : 0 < s.1.alpha)
    (hs : IsStick s.1.v s.1.w) {n : ℤ} (hex : s.1.v ≠ [] ∨ n ≠ 1) :
    ∃ r t, BBer.complete (.int n) ω s = (.ok r, t) ∧ n ≤ r.length := C04_betaBernoulli_partial n hω s hp ha hs hex

/-- After `random(0)` a prior draw raises `IndexError`. -/
theorem C18_random_refuted : ∃ ω : Oracle ℚ, ω.Legal ∧
    (BBer.random (.int 2) ω (BBer.cls.run id ω (BBer.init (1/2) 1, 0) [.random (.int 0)])).1 = .error .indexError :=
  ⟨demo, demo_legal, by decide +kernel⟩

/-- `complete(1)` on a fresh object raises `IndexError`, and then returns an empty array. -/
theorem C18_complete_refuted : ∃ ω : Oracle ℚ, ω.Legal ∧
    (BBer.complete (.int 1) ω (BBer.init (1/2) 1, 0)).1 = .error .indexError ∧
    (BBer.complete (.int 1) ω (BBer.cls.run id ω (BBer.init (1/2) 1, 0) [.complete (.int 1)])).1 = .ok [] := C04_betaBernoulli_refuted

/-! Non-vacuity: with `p = 1/2` this generator answers 0, so the three sticks are equal. -/
example : (BBer.random (.int 3) (demo : Oracle ℚ) (BBer.cls.run id demo (BBer.init (1/2) 1, 0) [.random (.int 2), .complete (.int 3)])).1
    = .ok [1/9, 8/81, 64/729] := by decide +kernel

end Verif
