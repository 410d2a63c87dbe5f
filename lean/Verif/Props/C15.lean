import Verif.Lemmas.BIDOk
import Verif.Lemmas.Demo

/-!
# C15: `BetaInDirichlet` never indexes outside its own tables and `random()` succeeds after `fit`

For `alpha > 0`, any real `a`, after any history that leaves non-negative labels: if `a = 0` or some label is at least 1, `random` returns
and afterwards every inner assignment is the number of an inner stick, stick `i` being the inner stick it refers to.

If all labels are 0 and `a ≠ 0`, `random` always raises `ValueError` (`np.max` of an empty array, line 65): `C15_refuted` and
`C15_single_group_fails`.
-/

set_option linter.unusedSectionVars false

namespace Verif
open Spec
variable {K : Type} [Field K] [LinearOrder K] [IsStrictOrderedRing K]

/-- Missing: the case of a single fitted group with `a > 0`, where the code raises. -/
theorem C15_partial (F : SpecFun K) (log : K → K) {ω : Oracle K} (hω : ω.Legal) (pos : ℕ) (ops : List (WOp K)) {alpha a : K}
    (ha : 0 < alpha) {s : BID K × ℕ} (hs : (BID.cls F).run log ω (BID.init alpha a, pos) ops = s)
    (hd : NonNegLabels s.1.d) {N : ℕ} (hm : IsMaxLabel s.1.d ((N : ℤ) - 1)) (hn : a = 0 ∨ 2 ≤ N) {size : PySize}
    (hsz : size = .none ∨ ∃ n, size = .int n) :
    ∃ r t, BID.random F size ω s = (.ok r, t) ∧ IsStick t.1.v r ∧ r.length = N ∧ t.1.dBase.length = N ∧
      ∀ (i x : ℕ), t.1.dBase[i]? = some x → x < t.1.vBase.length ∧ t.1.v[i]? = t.1.vBase[x]? := by
  have hh := BID.reach_hyper (ω := ω) log pos ops F alpha a
  rw [hs] at hh
  obtain ⟨r, t, h, hr, hf⟩ := wp_total (BID.random_ok hω F s (by rw [hh.1]; exact ha) hd hm (by rw [hh.2]; exact hn) hsz)
  refine ⟨r, t, h, ?_, ?_, hf.len, fun i x hx => ⟨hf.lt x (List.mem_of_getElem? hx), hf.sticks i x hx⟩⟩
  · rw [hr, hf.w]; exact stickWeights_isStick _
  · rw [hr, hf.w, stickWeights_length]; exact hf.vlen

/-- With `a ≠ 0` and all labels 0, `random` raises `ValueError` in every state and for every generator. -/
theorem C15_single_group_fails (F : SpecFun K) (ω : Oracle K) (s : BID K × ℕ) (ha : 0 < s.1.alpha) (ha0 : s.1.a ≠ 0)
    (hd : s.1.d ≠ []) (h0 : ∀ x ∈ s.1.d, x = 0) : (BID.random F .none ω s).1 = .error .valueError := by
  have hm : IsMaxLabel s.1.d 0 := by
    obtain ⟨x, hx⟩ := List.exists_mem_of_ne_nil _ hd
    exact ⟨h0 x hx ▸ hx, fun y hy => (h0 y hy).le⟩
  have hnn : NonNegLabels s.1.d := fun x hx => (h0 x hx).ge
  suffices h : wp ω (BID.random F .none) (fun _ _ => False) (fun e _ => e = .valueError) s by
    unfold wp at h
    rcases hr : BID.random F .none ω s with ⟨e | r, t⟩
    · rw [hr] at h; rw [h]
    · rw [hr] at h; exact h.elim
  obtain ⟨a_c, hb, hA⟩ := bincount_ok hnn
  have hac : a_c.length = 1 := by have := hA.length_eq hm; omega
  unfold BID.random
  rw [wp_bind, wp_self, wp_ite]
  refine ⟨fun _ => rfl, fun _ => ?_⟩
  rw [wp_bind, wp_assign, wp_ite]
  refine ⟨fun h => absurd (List.length_eq_zero_iff.1 h) hd, fun _ => ?_⟩
  unfold BID.randomFitted
  rw [wp_bind, wp_self, maxInt_eq_ok_iff.2 hm, wp_bind, wp_lift]
  refine ⟨?_, nofun⟩
  rintro _ ⟨⟩
  rw [wp_bind, wp_assign, wp_bind, wp_self]
  simp only [zero_add]
  set s1 : BID K := (if (s.1.dBase.length : ℤ) < 1 then
      { ({ s.1 with v := [], vBase := [] } : BID K) with dBase := s.1.dBase ++ List.replicate ((1 : ℤ) - s.1.dBase.length).toNat 0 }
    else if (s.1.dBase.length : ℤ) > 1 then
      { ({ s.1 with v := [], vBase := [] } : BID K) with dBase := Py.sliceTo s.1.dBase 1 } else { s.1 with v := [], vBase := [] }) with hs1
  have hlen : s1.dBase.length = 1 := by
    rw [hs1]
    split
    · simp; omega
    · split
      · rw [sliceTo_nonneg _ (by omega)]; simp; omega
      · change s.1.dBase.length = 1; omega
  have hpar : s1.alpha = s.1.alpha ∧ s1.a = s.1.a ∧ s1.d = s.1.d := by
    rw [hs1]; split
    · exact ⟨rfl, rfl, rfl⟩
    · split <;> exact ⟨rfl, rfl, rfl⟩
  clear_value s1
  obtain ⟨k, hk, _, hkmax⟩ := BID.maxNat_ok (l := s1.dBase) (by intro h; rw [h] at hlen; simp at hlen)
  rw [hk, wp_bind, wp_lift]
  refine ⟨?_, nofun⟩
  rintro _ ⟨⟩
  rw [hpar.2.2, hb, wp_bind, wp_lift]
  refine ⟨?_, nofun⟩
  rintro _ ⟨⟩
  rw [wp_bind]
  refine wp_mono (BID.drawBase_ok (by rw [hpar.1]; exact ha) _ _ _ _ _) ?_ (fun _ _ h => h.elim)
  rintro vb t ⟨e2, hvb⟩
  rw [wp_bind, wp_assign, wp_bind]
  rw [show List.range (1 : ℤ).toNat = [0] from rfl]
  unfold BID.updateAll BID.updateOne
  rw [wp_bind, wp_bind, wp_self, wp_ite, e2]
  refine ⟨fun h => absurd (by rw [← hpar.2.1]; exact h) ha0, fun _ => ?_⟩
  have hdel : Py.delete s1.dBase 0 = [] := by
    rcases hl : s1.dBase with _ | ⟨x, _ | ⟨y, ys⟩⟩
    · rw [hl] at hlen; simp at hlen
    · rfl
    · rw [hl] at hlen; simp at hlen
  dsimp only
  rw [hdel, wp_bind, wp_lift]
  exact ⟨nofun, fun x hx => by cases hx; rfl⟩

/-- `BetaInDirichlet(alpha=1, a=1)` after `fit([0, 0])`: `random()` raises `ValueError`. -/
theorem C15_refuted (F : SpecFun ℚ) : ∃ ω : Oracle ℚ, ω.Legal ∧
    (BID.random F .none ω ((BID.cls F).run id ω (BID.init 1 1, 0) [.fit [0, 0]])).1 = .error .valueError :=
  ⟨demo, demo_legal, C15_single_group_fails F demo ((BID.cls F).setD [0, 0] (BID.init 1 1), 0) one_pos one_ne_zero
    (by change [0, 0] ≠ []; simp) (by change ∀ x ∈ [0, 0], x = 0; simp)⟩

/-! Non-vacuity: two groups, `a = 1`. -/
example : (BID.random ⟨id, id⟩ .none demo ((⟨1, 1, [], [], [], [], [], [1, 0]⟩, 0) : BID ℚ × ℕ)).1 = .ok [1/2, 1/4] := by
  decide +kernel
example : IsMaxLabel [1, 0] (((2 : ℕ) : ℤ) - 1) ∧ NonNegLabels [1, 0] := by simp [IsMaxLabel, NonNegLabels]

end Verif
