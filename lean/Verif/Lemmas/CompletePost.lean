import Verif.Lemmas.Wp
import Verif.Lemmas.Stable

/-! # Postcondition of `complete` for the stick-breaking classes, for one call from an arbitrary state -/

set_option linter.unusedSectionVars false
set_option linter.unusedSimpArgs false

namespace Verif
open Spec
variable {K : Type} [Field K] [LinearOrder K] [IsStrictOrderedRing K] {ω : Oracle K}

/-- What a successful `complete(size)` does to the sticks `v` and weights `w`. -/
structure CPost (v w v' w' : List K) (size : PySize) : Prop where
  pre : v <+: v'
  w_eq : (v' = v ∧ w' = w) ∨ w' = stickWeights v'
  len : ∀ n, size.toInt? = some n → n ≤ v'.length ∧ (1 ≤ n → v.length ≤ n → (v'.length : ℤ) = n)
  num : size.toInt? ≠ none
  stop : ∀ n, size.toInt? = some n → v ≠ [] → n ≤ v.length → v' = v

theorem CPost.same {v w : List K} {size : PySize} {n : ℤ} (hn : size.toInt? = some n) (h : n ≤ v.length) :
    CPost v w v w size where
  pre := List.prefix_refl _
  w_eq := .inl ⟨rfl, rfl⟩
  len := by intro m hm; rw [hn] at hm; cases hm; exact ⟨h, fun _ _ => by omega⟩
  num := by rw [hn]; exact nofun
  stop := fun _ _ _ _ => rfl

theorem CPost.grow {v w nv : List K} {size : PySize} {n : ℤ} (hn : size.toInt? = some n)
    (h : (nv.length : ℤ) = n - v.length) : CPost v w (v ++ nv) (stickWeights (v ++ nv)) size where
  pre := List.prefix_append _ _
  w_eq := .inr rfl
  len := by
    intro m hm; rw [hn] at hm; cases hm
    simp only [List.length_append, Nat.cast_add]
    exact ⟨by omega, fun _ _ => by omega⟩
  num := by rw [hn]; exact nofun
  stop := by
    intro m hm; rw [hn] at hm; cases hm
    intro _ hle
    have : nv = [] := List.length_eq_zero_iff.1 (by omega)
    simp [this]

theorem stickWeights_prefix {u v : List K} (h : u <+: v) : stickWeights u <+: stickWeights v := by
  obtain ⟨t, rfl⟩ := h
  rw [stickWeights_append]
  exact List.prefix_append _ _

theorem checkSize_err {size : PySize} {e : PyErr} (h : BaseWeight.checkSize size = .error e) : e = .typeError := by
  cases size <;> simp_all [BaseWeight.checkSize]

namespace DP
theorem complete_post (size : PySize) (s : DP K × ℕ) :
    wp ω (complete size) (fun r t => r = t.1.w ∧ t.1.d = s.1.d ∧ t.1.alpha = s.1.alpha ∧
        CPost s.1.v s.1.w t.1.v t.1.w size) (fun _ t => t = s) s := by
  unfold complete
  rw [wp_bind, wp_lift]
  refine ⟨fun _ _ => ?_, fun _ _ => rf⟩
  split
  · rfl
  · rename_i n hn
    wp_simp
    refine ⟨fun hlt => ⟨fun _ => rf, fun _ _ h0 => ⟨rf, rf, rf, ?_⟩⟩, fun hlt => ⟨rf, rf, rf, ?_⟩⟩
    · exact CPost.grow hn (by simp; omega)
    · exact CPost.same hn (by omega)
end DP

namespace PY
theorem complete_post (size : PySize) (s : PY K × ℕ) (hs : s.1.w.length = s.1.v.length) :
    wp ω (complete size) (fun r t => r = t.1.w ∧ t.1.d = s.1.d ∧ t.1.alpha = s.1.alpha ∧ t.1.pyd = s.1.pyd ∧
        CPost s.1.v s.1.w t.1.v t.1.w size) (fun _ t => t = s) s := by
  unfold complete
  rw [wp_bind, wp_lift]
  refine ⟨fun _ _ => ?_, fun _ _ => rf⟩
  split
  · rfl
  · rename_i n hn
    wp_simp
    refine ⟨fun hlt => ⟨fun _ => rf, fun _ => ⟨rf, rf, rf, rf, ?_⟩⟩, fun hlt => ⟨rf, rf, rf, rf, ?_⟩⟩
    · refine CPost.grow hn ?_
      simp only [M.betaValues_length, priorParams, Py.arange, List.length_map, List.length_range]; omega
    · exact CPost.same hn (by omega)
end PY

namespace Geo
theorem complete_post (size : PySize) (s : Geo K × ℕ) (hs : ∀ x ∈ s.1.v, x = s.1.p) :
    wp ω (complete size) (fun r t => r = t.1.w ∧ t.1.d = s.1.d ∧ t.1.p = s.1.p ∧ t.2 = s.2 ∧ (∀ x ∈ t.1.v, x = t.1.p) ∧
        CPost s.1.v s.1.w t.1.v t.1.w size) (fun _ t => t = s) s := by
  unfold complete
  rw [wp_bind, wp_lift]
  refine ⟨fun _ _ => ?_, fun _ _ => rf⟩
  split
  · rfl
  · rename_i n hn
    wp_simp
    refine ⟨fun hlt => ⟨fun nv hnv => ⟨rf, rf, rf, rf, ?_⟩, fun _ _ => rf⟩, fun hlt => ⟨rf, rf, rf, rf, hs, ?_⟩⟩
    · unfold Py.repeatScalar at hnv
      rw [if_neg (by omega)] at hnv
      cases hnv
      have hv : s.1.v = List.replicate s.1.v.length s.1.p := List.eq_replicate_iff.2 ⟨rfl, hs⟩
      have happ : List.replicate n.toNat s.1.p = s.1.v ++ List.replicate (n - s.1.v.length).toNat s.1.p := by
        conv_rhs => rw [hv]
        rw [List.length_replicate, List.replicate_append_replicate]
        congr 1; omega
      refine ⟨fun x hx => List.eq_of_mem_replicate hx, ?_⟩
      simp only [happ]
      exact CPost.grow hn (by simp; omega)
    · exact CPost.same hn (by omega)
end Geo

namespace BIB
theorem randomP_post (s : BIB K × ℕ) :
    wp ω randomP (fun _ t => t.1 = { s.1 with p := t.1.p }) (fun _ t => t.1 = { s.1 with p := t.1.p }) s := by
  unfold randomP drawGeometricP drawPriorP
  wp_simp
  refine ⟨fun _ => by simp, fun _ => ⟨fun _ => trivial, fun _ => ⟨fun _ => by simp, fun _ => ?_⟩⟩⟩
  split <;> wp_simp <;> simp

theorem complete_post (size : PySize) (s : BIB K × ℕ) :
    wp ω (complete size) (fun r t => r = t.1.w ∧ t.1.d = s.1.d ∧ t.1.x = s.1.x ∧ t.1.alpha = s.1.alpha ∧
        CPost s.1.v s.1.w t.1.v t.1.w size) (fun _ t => t.1 = { s.1 with p := t.1.p }) s := by
  unfold complete
  rw [wp_bind, wp_lift]
  refine ⟨fun _ _ => ?_, fun _ _ => rf⟩
  rw [wp_bind, wp_self, wp_bind]
  have hP : wp ω (M.whenM (s.1.v.length ≠ 0) randomP) (fun _ t => t.1 = { s.1 with p := t.1.p })
      (fun _ t => t.1 = { s.1 with p := t.1.p }) s := by
    rw [wp_whenM]
    exact ⟨fun _ => randomP_post s, fun _ => rf⟩
  refine wp_mono hP ?_ (fun _ _ h => h)
  intro _ s1 h1
  have hv : s1.1.v = s.1.v := by rw [h1]
  have hw : s1.1.w = s.1.w := by rw [h1]
  have hd : s1.1.d = s.1.d := by rw [h1]
  have hx : s1.1.x = s.1.x := by rw [h1]
  have ha : s1.1.alpha = s.1.alpha := by rw [h1]
  split
  · exact h1
  · rename_i n hn
    unfold newSticks
    wp_simp
    refine ⟨fun hlt => ⟨fun _ => ⟨fun _ => h1, fun _ _ h0 => ⟨rf, hd, hx, ha, ?_⟩⟩,
      fun _ => ⟨fun nv hnv => ⟨rf, hd, hx, ha, ?_⟩, fun _ _ => h1⟩⟩, fun hlt => ⟨rf, hd, hx, ha, ?_⟩⟩
    · rw [← hv, ← hw]
      exact CPost.grow hn (by simp; omega)
    · rw [← hv, ← hw]
      unfold Py.repeatScalar at hnv
      rw [if_neg (by omega)] at hnv
      cases hnv
      exact CPost.grow hn (by simp; omega)
    · rw [hv, hw]
      exact CPost.same hn (by rw [← hv]; omega)
end BIB

namespace BBin
theorem growOne_post (s : BBin K × ℕ) :
    wp ω growOne (fun _ t => t.1.w = s.1.w ∧ t.1.d = s.1.d ∧ t.1.n = s.1.n ∧ t.1.alpha = s.1.alpha ∧
        ∃ x, t.1.v = s.1.v ++ [x])
      (fun _ t => t.1.w = s.1.w ∧ t.1.d = s.1.d ∧ t.1.v = s.1.v) s := by
  unfold growOne
  wp_simp
  refine ⟨fun vl _ => ⟨fun _ => ⟨rf, rf, rf⟩, fun _ _ _ => ⟨fun _ => ⟨rf, rf, rf⟩,
    fun _ _ => ⟨rf, rf, rf, rf, _, rf⟩⟩⟩, fun _ _ => ⟨rf, rf, rf⟩⟩

theorem grow_post (k : ℕ) (s : BBin K × ℕ) :
    wp ω (grow k) (fun _ t => t.1.w = s.1.w ∧ t.1.d = s.1.d ∧ t.1.n = s.1.n ∧ t.1.alpha = s.1.alpha ∧
        ∃ x, x.length = k ∧ t.1.v = s.1.v ++ x)
      (fun _ t => t.1.w = s.1.w ∧ t.1.d = s.1.d ∧ s.1.v <+: t.1.v) s := by
  induction k generalizing s with
  | zero => exact ⟨rf, rf, rf, rf, [], rf, by simp⟩
  | succ k ih =>
    unfold grow
    rw [wp_bind]
    refine wp_mono (growOne_post s) ?_ (fun _ t h => ⟨h.1, h.2.1, by rw [h.2.2]⟩)
    rintro _ s1 ⟨hw, hd, hn, ha, x, hx⟩
    refine wp_mono (ih s1) ?_ ?_
    · rintro _ s2 ⟨hw2, hd2, hn2, ha2, y, hy, hx2⟩
      exact ⟨hw2.trans hw, hd2.trans hd, hn2.trans hn, ha2.trans ha, x :: y, by simp [hy], by rw [hx2, hx]; simp⟩
    · rintro _ s2 ⟨hw2, hd2, hx2⟩
      exact ⟨hw2.trans hw, hd2.trans hd, (by rw [hx]; exact List.prefix_append _ _ : s.1.v <+: s1.1.v).trans hx2⟩

theorem complete_post (size : PySize) (s : BBin K × ℕ) :
    wp ω (complete size) (fun r t => r = t.1.w ∧ t.1.d = s.1.d ∧ t.1.n = s.1.n ∧ t.1.alpha = s.1.alpha ∧
        t.1.w = stickWeights t.1.v ∧ t.1.v ≠ [] ∧ CPost s.1.v s.1.w t.1.v t.1.w size)
      (fun _ t => t.1.w = s.1.w ∧ t.1.d = s.1.d ∧ s.1.v <+: t.1.v) s := by
  unfold complete
  rw [wp_bind, wp_lift]
  refine ⟨fun _ _ => ?_, fun _ _ => ⟨rf, rf, List.prefix_refl _⟩⟩
  rw [wp_bind, wp_self, wp_bind]
  have hP : wp ω (M.whenM (s.1.v.length = 0) do
        let v0 ← M.beta 1 s.1.alpha
        let z ← M.binom s.1.n v0
        M.assign (fun s => { s with binomials := [z] })
        let nv ← M.beta (1 + (z : K)) (s.1.alpha + (s.1.n : K) - (z : K))
        M.assign (fun s => { s with v := [nv] }))
      (fun _ t => t.1.w = s.1.w ∧ t.1.d = s.1.d ∧ t.1.n = s.1.n ∧ t.1.alpha = s.1.alpha ∧
        ∃ x, t.1.v = s.1.v ++ x ∧ ((s.1.v = [] ∧ x.length = 1) ∨ (s.1.v ≠ [] ∧ x = [])))
      (fun _ t => t.1.w = s.1.w ∧ t.1.d = s.1.d ∧ s.1.v <+: t.1.v) s := by
    wp_simp
    refine ⟨fun h0 => ⟨fun _ => ⟨rf, rf, List.prefix_refl _⟩, fun _ _ => ⟨fun _ => ⟨rf, rf, List.prefix_refl _⟩,
      fun _ _ _ => ⟨fun _ => ⟨rf, rf, List.prefix_refl _⟩, fun _ _ => ⟨rf, rf, rf, rf, ?_⟩⟩⟩⟩,
      fun h0 => ⟨rf, rf, rf, rf, [], by simp, .inr ⟨?_, rf⟩⟩⟩
    · have h0' := List.length_eq_zero_iff.1 h0
      rw [h0']
      exact ⟨[_], rfl, .inl ⟨rfl, rfl⟩⟩
    · intro h; rw [h] at h0; exact h0 rf
  refine wp_mono hP ?_ (fun _ _ h => h)
  rintro _ s1 ⟨hw, hd, hn1, ha, x, hx, hcase⟩
  have hpre : s.1.v <+: s1.1.v := by rw [hx]; exact List.prefix_append _ _
  have hne : s1.1.v ≠ [] := by
    rcases hcase with ⟨h, hl⟩ | ⟨h, hl⟩
    · rw [hx, h]; intro hc; rw [List.nil_append] at hc; rw [hc] at hl; exact absurd hl (by simp)
    · rw [hx, hl, List.append_nil]; exact h
  have hpos : 0 < s1.1.v.length := List.length_pos_of_ne_nil hne
  split
  · exact ⟨hw, hd, hpre⟩
  · rename_i n hn
    rw [wp_bind, wp_self, wp_bind]
    refine wp_mono (grow_post _ s1) ?_ (fun _ t h => ⟨h.1.trans hw, h.2.1.trans hd, hpre.trans h.2.2⟩)
    rintro _ s2 ⟨hw2, hd2, hn2, ha2, y, hy, hx2⟩
    wp_simp
    have hlen : s2.1.v.length = s1.1.v.length + (n - s1.1.v.length).toNat := by rw [hx2]; simp [hy]
    refine ⟨rf, hd2.trans hd, hn2.trans hn1, ha2.trans ha, rf, ?_, ?_, .inr rf, ?_, ?_, ?_⟩
    · rw [hx2]; intro hc; exact hne (List.append_eq_nil_iff.1 hc).1
    · refine hpre.trans ?_; rw [hx2]; exact List.prefix_append _ _
    · intro m hm; rw [hn] at hm; cases hm
      refine ⟨by omega, fun h1 h2 => ?_⟩
      have : (s1.1.v.length : ℤ) ≤ n := by
        rcases hcase with ⟨h, hl⟩ | ⟨h, hl⟩
        · rw [hx, h]; simp [hl]; exact h1
        · rw [hx, hl, List.append_nil]; exact h2
      omega
    · rw [hn]; exact nofun
    · intro m hm; rw [hn] at hm; cases hm
      intro h1 h2
      rcases hcase with ⟨h, hl⟩ | ⟨h, hl⟩
      · exact absurd h h1
      · rw [hl, List.append_nil] at hx
        rw [hx] at hlen
        have : y = [] := List.length_eq_zero_iff.1 (by rw [hy, hx]; omega)
        show s2.1.v = s.1.v
        rw [hx2, this, List.append_nil, hx]
end BBin
namespace BBer
theorem gather_length {α : Type} {l xs : List α} {is : List ℤ} (h : Py.gather l is = .ok xs) : xs.length = is.length := by
  induction is generalizing xs with
  | nil => cases h; rfl
  | cons i is ih =>
    unfold Py.gather at h
    split at h
    · cases h
    · split at h
      · cases h
      · cases h
        simp [ih ‹_›]

theorem complete_post (size : PySize) (s : BBer K × ℕ) :
    wp ω (complete size) (fun r t => r = t.1.w ∧ t.1.d = s.1.d ∧ t.1.p = s.1.p ∧ t.1.alpha = s.1.alpha ∧
        CPost s.1.v s.1.w t.1.v t.1.w size)
      (fun _ t => t.1.w = s.1.w ∧ t.1.d = s.1.d ∧ s.1.v <+: t.1.v) s := by
  unfold complete
  rw [wp_bind, wp_lift]
  refine ⟨fun _ _ => ?_, fun _ _ => ⟨rf, rf, List.prefix_refl _⟩⟩
  split
  · exact ⟨rf, rf, List.prefix_refl _⟩
  · rename_i n hn
    rw [wp_bind, wp_self, wp_bind, wp_whenM]
    refine ⟨fun hlt => ?_, fun hlt => ?_⟩
    · rw [wp_bind]
      have hP : wp ω (M.whenM (s.1.v.length = 0) do
            let v ← M.betaRep 1 s.1.alpha 1
            M.assign (fun s => { s with v := v }))
          (fun _ t => t.1.w = s.1.w ∧ t.1.d = s.1.d ∧ t.1.p = s.1.p ∧ t.1.alpha = s.1.alpha ∧ s.1.v <+: t.1.v ∧
            (t.1.v.length : ℤ) ≤ n)
          (fun _ t => t.1.w = s.1.w ∧ t.1.d = s.1.d ∧ s.1.v <+: t.1.v) s := by
        wp_simp
        refine ⟨fun h0 => ⟨fun _ => ⟨rf, rf, List.prefix_refl _⟩, fun _ _ _ => ⟨rf, rf, rf, rf, ?_, ?_⟩⟩,
          fun h0 => ⟨rf, rf, rf, rf, List.prefix_refl _, by omega⟩⟩
        · rw [List.length_eq_zero_iff.1 h0]; exact List.nil_prefix
        · rw [h0] at hlt; simp; omega
      refine wp_mono hP ?_ (fun _ _ h => h)
      rintro _ s1 ⟨hw, hd, hp, ha, hpre, hle⟩
      wp_simp
      refine ⟨fun _ => ⟨hw, hd, hpre⟩, fun _ _ _ hm => ⟨fun vl _ => ⟨fun ml _ => ⟨fun _ => ⟨hw, hd, hpre⟩,
        fun _ _ _ => ⟨fun ext hext => ⟨rf, hd, hp, ha, ?_⟩, fun _ _ => ⟨hw, hd, hpre⟩⟩⟩, fun _ _ => ⟨hw, hd, hpre⟩⟩,
        fun _ _ => ⟨hw, hd, hpre⟩⟩⟩
      have hl := gather_length hext
      simp only [cumsum_length, List.length_map, List.length_range] at hl
      refine ⟨hpre.trans (List.prefix_append _ _), .inr rf, ?_, by rw [hn]; exact nofun, ?_⟩
      swap
      · intro m hm; rw [hn] at hm; cases hm
        intro _ h; omega
      intro m hm; rw [hn] at hm; cases hm
      simp only [List.length_append, hl]
      push_cast
      exact ⟨by omega, fun _ _ => by omega⟩
    · wp_simp
      exact ⟨trivial, trivial, trivial, trivial, CPost.same hn (by omega)⟩
end BBer

namespace BID
theorem growOne_post (s : BID K × ℕ) :
    wp ω growOne (fun _ t => t.1.w = s.1.w ∧ t.1.d = s.1.d ∧ t.1.a = s.1.a ∧ t.1.alpha = s.1.alpha ∧
        ∃ x, t.1.v = s.1.v ++ [x])
      (fun _ t => t.1.w = s.1.w ∧ t.1.d = s.1.d ∧ t.1.v = s.1.v) s := by
  unfold growOne useStick
  wp_simp
  refine ⟨fun _ => ⟨rf, rf, rf⟩, fun _ => ⟨fun _ => ⟨rf, rf, rf⟩, fun _ => ⟨fun _ => ⟨fun _ _ =>
    ⟨rf, rf, rf, rf, _, rf⟩, fun _ _ => ⟨rf, rf, rf⟩⟩, fun _ => ⟨fun _ => ⟨rf, rf, rf⟩,
    fun _ _ => ⟨rf, rf, rf, rf, _, rf⟩⟩⟩⟩⟩

theorem grow_post (k : ℕ) (s : BID K × ℕ) :
    wp ω (grow k) (fun _ t => t.1.w = s.1.w ∧ t.1.d = s.1.d ∧ t.1.a = s.1.a ∧ t.1.alpha = s.1.alpha ∧
        ∃ x, x.length = k ∧ t.1.v = s.1.v ++ x)
      (fun _ t => t.1.w = s.1.w ∧ t.1.d = s.1.d ∧ s.1.v <+: t.1.v) s := by
  induction k generalizing s with
  | zero => exact ⟨rf, rf, rf, rf, [], rf, by simp⟩
  | succ k ih =>
    unfold grow
    rw [wp_bind]
    refine wp_mono (growOne_post s) ?_ (fun _ t h => ⟨h.1, h.2.1, by rw [h.2.2]⟩)
    rintro _ s1 ⟨hw, hd, hn, ha, x, hx⟩
    refine wp_mono (ih s1) ?_ ?_
    · rintro _ s2 ⟨hw2, hd2, hn2, ha2, y, hy, hx2⟩
      exact ⟨hw2.trans hw, hd2.trans hd, hn2.trans hn, ha2.trans ha, x :: y, by simp [hy], by rw [hx2, hx]; simp⟩
    · rintro _ s2 ⟨hw2, hd2, hx2⟩
      exact ⟨hw2.trans hw, hd2.trans hd, (by rw [hx]; exact List.prefix_append _ _ : s.1.v <+: s1.1.v).trans hx2⟩

theorem complete_post (size : PySize) (s : BID K × ℕ) :
    wp ω (complete size) (fun _ t => t.1.d = s.1.d ∧ t.1.a = s.1.a ∧ t.1.alpha = s.1.alpha ∧
        t.1.w = stickWeights t.1.v ∧ CPost s.1.v s.1.w t.1.v t.1.w size)
      (fun _ t => t.1.w = s.1.w ∧ t.1.d = s.1.d ∧ s.1.v <+: t.1.v) s := by
  unfold complete
  rw [wp_bind, wp_self, wp_bind]
  have hP : wp ω (M.whenM (s.1.vBase.length = 0) do
        let v ← M.betaRep 1 s.1.alpha 1
        M.assign (fun s => { s with vBase := v })
        M.assign (fun s => { s with countBase := [1] }))
      (fun _ t => t.1.w = s.1.w ∧ t.1.d = s.1.d ∧ t.1.a = s.1.a ∧ t.1.alpha = s.1.alpha ∧ t.1.v = s.1.v)
      (fun _ t => t.1.w = s.1.w ∧ t.1.d = s.1.d ∧ s.1.v <+: t.1.v) s := by
    wp_simp
    exact ⟨fun h0 => ⟨fun _ => ⟨rf, rf, List.prefix_refl _⟩, fun _ _ _ => ⟨rf, rf, rf, rf, rf⟩⟩,
      fun h0 => ⟨rf, rf, rf, rf, rf⟩⟩
  refine wp_mono hP ?_ (fun _ _ h => h)
  rintro _ s1 ⟨hw, hd, hn1, ha, hx⟩
  split
  · exact ⟨hw, hd, by rw [hx]⟩
  · rename_i n hn
    rw [wp_bind, wp_self, wp_bind]
    refine wp_mono (grow_post _ s1) ?_ (fun _ t h => ⟨h.1.trans hw, h.2.1.trans hd, by rw [← hx]; exact h.2.2⟩)
    rintro _ s2 ⟨hw2, hd2, hn2, ha2, y, hy, hx2⟩
    wp_simp
    have hlen : s2.1.v.length = s.1.v.length + (n - s.1.v.length).toNat := by rw [hx2, hx]; simp [hy, hx]
    refine ⟨hd2.trans hd, hn2.trans hn1, ha2.trans ha, rf, ?_, .inr rf, ?_, ?_, ?_⟩
    · rw [hx2, hx]; exact List.prefix_append _ _
    · intro m hm; rw [hn] at hm; cases hm
      exact ⟨by omega, fun h1 h2 => by omega⟩
    · rw [hn]; exact nofun
    · intro m hm; rw [hn] at hm; cases hm
      intro _ h2
      have : y = [] := List.length_eq_zero_iff.1 (by rw [hy, hx]; omega)
      show s2.1.v = s.1.v
      rw [hx2, this, List.append_nil, hx]
end BID
end Verif
