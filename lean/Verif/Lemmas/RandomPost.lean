import Verif.Lemmas.CompletePost

/-! # Postcondition of `random` for the stick-breaking classes, for one call from an arbitrary state -/

set_option linter.unusedSectionVars false
set_option linter.unusedSimpArgs false

namespace Verif
open Spec
variable {K : Type} [Field K] [LinearOrder K] [IsStrictOrderedRing K] {ω : Oracle K}

/-- What a successful `random(size)` leaves behind. -/
structure RPost (d : List ℤ) (size : PySize) (v w r : List K) : Prop where
  ret : r = w
  stick : w = stickWeights v
  ne : v ≠ []
  cover : size = .none → ∀ m, IsMaxLabel d m → m + 1 ≤ v.length

/-- The number of weights is exactly the requested one. -/
def Exact (size : PySize) (v : List K) : Prop := ∀ n, size.toInt? = some n → (v.length : ℤ) = n

theorem length_ne_nil {α : Type} {l : List α} {n : ℤ} (h : (l.length : ℤ) = n) (hn : 1 ≤ n) : l ≠ [] := by
  rintro rfl; simp at h; omega

/-- `complete` after the fitted branch stored at most as many sticks as requested. -/
theorem rpost_of_complete {d : List ℤ} {size : PySize} {v v' w' : List K} {n : ℤ} (hn : size.toInt? = some n)
    (h : CPost v (stickWeights v) v' w' size) (hpos : 1 ≤ n) :
    RPost d size v' w' w' := by
  have hl := (h.len n hn).1
  refine ⟨rfl, ?_, ?_, ?_⟩
  · rcases h.w_eq with ⟨h1, h2⟩ | h
    · rw [h2, h1]
    · exact h
  · rintro rfl; simp at hl; omega
  · rintro rfl; simp [PySize.toInt?] at hn

theorem exact_of_complete {size : PySize} {v w v' w' : List K} {n : ℤ} (hn : size.toInt? = some n)
    (h : CPost v w v' w' size) (hpos : 1 ≤ n) (hv : v.length ≤ n) : Exact size v' := by
  intro m hm; rw [hn] at hm; cases hm
  exact (h.len n hn).2 hpos hv

theorem sliceTo_length_le {α : Type} (l : List α) {n : ℤ} (h : 0 ≤ n) : ((Py.sliceTo l n).length : ℤ) ≤ n := by
  rw [sliceTo_nonneg _ h, List.length_take]; omega

theorem IsBincount.len_max {d : List ℤ} {a : List ℕ} (h : IsBincount d a) (hd : d.length ≠ 0) {m : ℤ}
    (hm : IsMaxLabel d m) : m + 1 ≤ a.length := (h.length_eq hm).symm.le

namespace DP
theorem random_post (size : PySize) (s : DP K × ℕ) :
    wp ω (random size) (fun r t => ReqPos size → RPost s.1.d size t.1.v t.1.w r ∧ Exact size t.1.v)
      (fun _ _ => True) s := by
  unfold random
  rw [wp_bind, wp_self, wp_ite]
  refine ⟨fun _ => trivial, fun hnd => ?_⟩
  split
  · trivial
  · trivial
  · rename_i hnp hoth
    rw [wp_bind, wp_assign, wp_ite]
    refine ⟨fun h0 => ?_, fun h0 => ?_⟩
    · refine wp_mono (complete_post _ _) ?_ (fun _ _ _ => trivial)
      rintro r t ⟨hr, hd, ha, hc⟩ hreq
      rcases hreq with rfl | ⟨n, hn, hpos⟩
      · exact absurd rfl hc.num
      · have hc' : CPost ([] : List K) (stickWeights []) t.1.v t.1.w size := by
          refine ⟨hc.pre, ?_, hc.len, hc.num, fun _ _ h => absurd rfl h⟩
          rcases hc.w_eq with ⟨h1, h2⟩ | h
          · have := (hc.len n hn).1
            simp only at h1
            rw [h1] at this; simp at this; omega
          · exact .inr h
        rw [hr]
        exact ⟨rpost_of_complete hn hc' hpos, exact_of_complete hn hc' hpos (by simp; omega)⟩
    · unfold randomFitted drawSticks
      wp_simp
      refine ⟨fun a hb => ?_, fun _ _ => trivial⟩
      have hB := IsBincount.of_ok hb
      have hane : a ≠ [] := hB.ne_nil (by intro h; rw [h] at h0; exact h0 rfl)
      have hrl := revTails_length hane
      have hpl : (params s.1.alpha a (revTails a)).length = a.length := by simp [params, hrl]
      split
      · rename_i n hn
        have hsz : size ≠ .none := by rintro rfl; simp [PySize.toInt?] at hn
        have hgo : ∀ (v : List K) (p : ℕ), (1 ≤ n → v.length ≤ n) →
            wp ω (complete size) (fun _ s' => ReqPos size → RPost s.1.d size s'.1.v s'.1.w s'.1.w ∧ Exact size s'.1.v)
              (fun _ _ => True) ({ s.1 with v := v, w := stickWeights v }, p) := by
          intro v p hl
          refine wp_mono (complete_post _ _) ?_ (fun _ _ _ => trivial)
          rintro r t ⟨hr, hd, ha, hc⟩ hreq
          rcases hreq with rfl | ⟨n', hn', hpos⟩
          · exact absurd rfl hsz
          · rw [hn] at hn'; cases hn'
            exact ⟨rpost_of_complete hn hc hpos, exact_of_complete hn hc hpos (hl hpos)⟩
        wp_simp
        refine ⟨fun hlt => ⟨fun _ => trivial, fun _ => ⟨fun _ => ?_, fun h => absurd hsz h⟩⟩,
          fun hlt => ⟨fun _ => trivial, fun _ => ⟨fun _ => ?_, fun h => absurd hsz h⟩⟩⟩
        · refine hgo _ _ fun hpos => ?_
          rw [M.betaValues_length, params, sliceTo_zipWith _ _ _ hrl.symm]
          exact sliceTo_length_le _ (by omega)
        · refine hgo _ _ fun hpos => ?_
          rw [M.betaValues_length, hpl]; omega
      · rename_i hn
        have hsz : size = .none := by
          cases size <;> simp_all [PySize.toInt?]
        subst hsz
        wp_simp
        refine ⟨fun _ => trivial, fun _ => ⟨fun h => absurd rfl h, fun _ _ => ⟨⟨rf, rf, ?_, ?_⟩, ?_⟩⟩⟩
        · apply List.ne_nil_of_length_pos
          rw [M.betaValues_length, hpl]; exact List.length_pos_of_ne_nil hane
        · intro _ m hm
          rw [M.betaValues_length, hpl]; exact hB.len_max h0 hm
        · intro n hn; cases hn
end DP

namespace PY
theorem random_post (size : PySize) (s : PY K × ℕ) :
    wp ω (random size) (fun r t => ReqPos size → RPost s.1.d size t.1.v t.1.w r ∧ Exact size t.1.v)
      (fun _ _ => True) s := by
  unfold random
  rw [wp_bind, wp_self, wp_ite]
  refine ⟨fun _ => trivial, fun hnd => ?_⟩
  rw [wp_ite]
  refine ⟨fun h0 => ?_, fun h0 => ?_⟩
  · split
    · trivial
    · rename_i n hn
      wp_simp
      refine ⟨fun _ => trivial, fun _ => ⟨fun _ => trivial, fun _ hreq => ?_⟩⟩
      have hpos : 1 ≤ n := by
        rcases hreq with rfl | ⟨n', hn', hpos⟩
        · cases hn
        · rw [hn] at hn'; cases hn'; exact hpos
      have hl : ((M.betaValues ω s.2 (s.1.priorParams (Py.arange 0 n))).length : ℤ) = n := by
        rw [M.betaValues_length]
        simp only [priorParams, Py.arange, List.length_map, List.length_range]; omega
      refine ⟨⟨rf, rf, length_ne_nil hl hpos, ?_⟩, ?_⟩
      · rintro rfl; cases hn
      · intro m hm; rw [hn] at hm; cases hm; exact hl
  · rw [wp_bind, wp_lift]
    refine ⟨fun a hb => ?_, fun _ _ => trivial⟩
    have hB := IsBincount.of_ok hb
    have hane : a ≠ [] := hB.ne_nil (by intro h; rw [h] at h0; exact h0 rfl)
    have hrl := revTails_length hane
    have hplen : ∀ (c e : List ℕ), c.length = e.length → (s.1.params c e).length = c.length := by
      intro c e h; simp [params, Py.arange, h]
    unfold drawSticks
    have hgo : ∀ (v : List K) (p : ℕ) (n : ℤ), size.toInt? = some n → (1 ≤ n → v.length ≤ n) →
        wp ω (complete size) (fun _ s' => ReqPos size → RPost s.1.d size s'.1.v s'.1.w s'.1.w ∧ Exact size s'.1.v)
          (fun _ _ => True) ({ s.1 with v := v, w := stickWeights v }, p) := by
      intro v p n hn hl
      refine wp_mono (complete_post _ _ (by simp)) ?_ (fun _ _ _ => trivial)
      rintro r t ⟨hr, hd, ha, _, hc⟩ hreq
      rcases hreq with rfl | ⟨n', hn', hpos⟩
      · cases hn
      · rw [hn] at hn'; cases hn'
        exact ⟨rpost_of_complete hn hc hpos, exact_of_complete hn hc hpos (hl hpos)⟩
    have hnum : ∀ n : ℤ, size.toInt? = some n → size ≠ .none →
        wp ω (if n < (a.length : ℤ) then M.betaVec (s.1.params (Py.sliceTo a n) (Py.sliceTo (revTails a) n))
            else M.betaVec (s.1.params a (revTails a)))
          (fun v s' => wp ω (do
            M.assign (fun s => { s with v := v, w := stickWeights v })
            M.whenM (size ≠ .none) do
              let _ ← complete size
            let s ← M.self
            pure s.w) (fun r t => ReqPos size → RPost s.1.d size t.1.v t.1.w r ∧ Exact size t.1.v)
              (fun _ _ => True) s') (fun _ _ => True) s := by
      intro n hn hsz
      wp_simp
      refine ⟨fun hlt => ⟨fun _ => trivial, fun _ => ⟨fun _ => ?_, fun h => absurd hsz h⟩⟩,
          fun hlt => ⟨fun _ => trivial, fun _ => ⟨fun _ => ?_, fun h => absurd hsz h⟩⟩⟩
      · refine hgo _ _ n hn fun hpos => ?_
        have hsl : (Py.sliceTo a n).length = (Py.sliceTo (revTails a) n).length := by
          rw [sliceTo_nonneg _ (by omega), sliceTo_nonneg _ (by omega)]; simp [hrl]
        rw [M.betaValues_length, hplen _ _ hsl]
        exact sliceTo_length_le _ (by omega)
      · refine hgo _ _ n hn fun hpos => ?_
        rw [M.betaValues_length, hplen _ _ hrl.symm]; omega
    rw [wp_bind]
    split
    · trivial
    · wp_simp
      refine ⟨fun _ => trivial, fun _ => ⟨fun h => absurd rfl h, fun _ _ => ⟨⟨rf, rf, ?_, ?_⟩, ?_⟩⟩⟩
      · apply List.ne_nil_of_length_pos
        rw [M.betaValues_length, hplen _ _ hrl.symm]; exact List.length_pos_of_ne_nil hane
      · intro _ m hm
        rw [M.betaValues_length, hplen _ _ hrl.symm]; exact hB.len_max h0 hm
      · intro n hn; cases hn
    · exact hnum _ rfl nofun
    · exact hnum _ rfl nofun
end PY

namespace Geo
theorem random_post (size : PySize) (s : Geo K × ℕ) :
    wp ω (random size) (fun r t => ReqPos size → (∀ m, IsMaxLabel s.1.d m → 0 ≤ m) →
        RPost s.1.d size t.1.v t.1.w r ∧ Exact size t.1.v ∧ (∀ x ∈ t.1.v, x = t.1.p))
      (fun _ _ => True) s := by
  unfold random
  rw [wp_bind, wp_self, wp_ite]
  refine ⟨fun _ => trivial, fun hnd => ?_⟩
  wp_simp
  refine ⟨fun sz hsz => ⟨fun _ => trivial, fun _ _ => ?_⟩, fun _ _ => trivial⟩
  refine wp_mono (complete_post sz _ (by simp)) ?_ (fun _ _ _ => trivial)
  rintro r t ⟨hr, hd, hp, _, hv, hc⟩ hreq hmx
  have key : ∀ n, sz.toInt? = some n → 1 ≤ n → t.1.w = stickWeights t.1.v ∧ (t.1.v.length : ℤ) = n := by
    intro n hn hpos
    have h1 := (hc.len n hn).2 hpos (by simp; omega)
    refine ⟨?_, h1⟩
    rcases hc.w_eq with ⟨h2, h3⟩ | h
    · simp only at h2; rw [h2] at h1; simp at h1; omega
    · exact h
  by_cases hn : size = .none
  · subst hn
    unfold resolveSize at hsz
    simp only at hsz
    split at hsz
    · rename_i m hm
      cases hsz
      have hml := maxInt_eq_ok_iff.1 hm
      obtain ⟨hw, hl⟩ := key (m + 1) rfl (by have := hmx m hml; omega)
      refine ⟨⟨rfl, hw, length_ne_nil hl (by have := hmx m hml; omega), ?_⟩, ?_, hv⟩
      · intro _ m' hm'
        rw [hl, hml.unique hm']
      · intro n hn; cases hn
    · cases hsz
  · have : sz = size := by
      unfold resolveSize at hsz
      split at hsz
      · exact absurd rfl hn
      · cases hsz; rfl
    subst this
    rcases hreq with h | ⟨n, hn', hpos⟩
    · exact absurd h hn
    · obtain ⟨hw, hl⟩ := key n hn' hpos
      refine ⟨⟨rfl, hw, length_ne_nil hl hpos, fun h => absurd h hn⟩, ?_, hv⟩
      intro m hm; rw [hn'] at hm; cases hm; exact hl
end Geo

namespace BIB
theorem random_post (size : PySize) (s : BIB K × ℕ) :
    wp ω (random size) (fun r t => ReqPos size → RPost s.1.d size t.1.v t.1.w r ∧ Exact size t.1.v)
      (fun _ _ => True) s := by
  unfold random
  rw [wp_bind, wp_self, wp_ite]
  refine ⟨fun _ => trivial, fun hnd => ?_⟩
  rw [wp_bind, wp_assign, wp_ite]
  refine ⟨fun h0 => ?_, fun h0 => ?_⟩
  · refine wp_mono (complete_post _ _) ?_ (fun _ _ _ => trivial)
    rintro r t ⟨hr, hd, hx, ha, hc⟩ hreq
    rcases hreq with rfl | ⟨n, hn, hpos⟩
    · exact absurd rfl hc.num
    · have hc' : CPost ([] : List K) (stickWeights []) t.1.v t.1.w size := by
        refine ⟨hc.pre, ?_, hc.len, hc.num, fun _ _ h => absurd rfl h⟩
        rcases hc.w_eq with ⟨h1, h2⟩ | h
        · have := (hc.len n hn).1
          simp only at h1
          rw [h1] at this; simp at this; omega
        · exact .inr h
      rw [hr]
      exact ⟨rpost_of_complete hn hc' hpos, exact_of_complete hn hc' hpos (by simp; omega)⟩
  · rw [wp_bind]
    have hP : wp ω (M.whenM (0 < s.1.x) randomP) (fun _ t => t.1.d = s.1.d) (fun _ _ => True)
        ({ s.1 with v := [] }, s.2) := by
      rw [wp_whenM]
      exact ⟨fun _ => wp_mono (randomP_post _) (fun _ t h => by rw [h]) (fun _ _ _ => trivial), fun _ => rfl⟩
    refine wp_mono hP ?_ (fun _ _ h => h)
    intro _ s1 hd1
    rw [wp_bind, wp_lift]
    refine ⟨fun a hb => ?_, fun _ _ => trivial⟩
    have hB := IsBincount.of_ok hb
    have hdn : s.1.d ≠ [] := by intro h; rw [h] at h0; exact h0 rfl
    have hane : a ≠ [] := hB.ne_nil hdn
    have hrl := revTails_length hane
    have hmain : ∀ (sz : PySize) (n : ℤ), sz.toInt? = some n → 1 ≤ n →
        wp ω (randomFitted a (revTails a) sz n)
          (fun r t => r = t.1.w ∧ t.1.w = stickWeights t.1.v ∧ (t.1.v.length : ℤ) = n) (fun _ _ => True) s1 := by
      intro sz n hn hpos
      unfold randomFitted fittedSticks
      rw [wp_bind, wp_self, wp_bind]
      have hfs : wp ω (if s1.1.x < 1 then M.betaVec (s1.1.params
              (if n < (a.length : ℤ) then Py.sliceTo a n else a)
              (if n < (a.length : ℤ) then Py.sliceTo (revTails a) n else (revTails a)))
            else M.lift (Py.repeatScalar s1.1.p n))
          (fun v t => (v.length : ℤ) ≤ n) (fun _ _ => True) s1 := by
        wp_simp
        refine ⟨fun _ => ⟨fun _ => trivial, fun _ => ?_⟩, fun _ => ⟨fun v hv => ?_, fun _ _ => trivial⟩⟩
        · rw [M.betaValues_length]
          simp only [params]
          split
          · rw [sliceTo_zipWith _ _ _ hrl.symm]
            exact sliceTo_length_le _ (by omega)
          · simp [hrl]; omega
        · unfold Py.repeatScalar at hv
          rw [if_neg (by omega)] at hv
          cases hv
          simp; omega
      refine wp_mono hfs ?_ (fun _ _ _ => trivial)
      intro v s2 hv
      rw [wp_bind, wp_assign]
      refine wp_mono (complete_post _ _) ?_ (fun _ _ _ => trivial)
      rintro r t ⟨hr, hd, hx, ha, hc⟩
      have h := rpost_of_complete (d := []) hn hc hpos
      exact ⟨hr, h.stick, exact_of_complete hn hc hpos hv n hn⟩
    split
    · have hp : 1 ≤ (a.length : ℤ) := by have := List.length_pos_of_ne_nil hane; omega
      refine wp_mono (hmain _ _ rfl hp) ?_ (fun _ _ _ => trivial)
      rintro r t ⟨h1, h2, h3⟩ _
      refine ⟨⟨h1, h2, length_ne_nil h3 hp, ?_⟩, ?_⟩
      · intro _ m hm; rw [h3]; exact hB.len_max h0 hm
      · intro n hn; cases hn
    · trivial
    · rename_i n
      by_cases hpos : 1 ≤ n
      · refine wp_mono (hmain _ _ rfl hpos) ?_ (fun _ _ _ => trivial)
        rintro r t ⟨h1, h2, h3⟩ _
        refine ⟨⟨h1, h2, length_ne_nil h3 hpos, nofun⟩, ?_⟩
        intro m hm; cases hm; exact h3
      · refine wp_mono (Q' := fun _ _ => True) (E' := fun _ _ => True) ?_ ?_ (fun _ _ _ => trivial)
        · unfold wp; split <;> trivial
        · intro r t _ hreq
          rcases hreq with h | ⟨n', hn', hpos'⟩
          · cases h
          · cases hn'; exact absurd hpos' hpos
    · rename_i n
      by_cases hpos : 1 ≤ n
      · refine wp_mono (hmain _ _ rfl hpos) ?_ (fun _ _ _ => trivial)
        rintro r t ⟨h1, h2, h3⟩ _
        refine ⟨⟨h1, h2, length_ne_nil h3 hpos, nofun⟩, ?_⟩
        intro m hm; cases hm; exact h3
      · refine wp_mono (Q' := fun _ _ => True) (E' := fun _ _ => True) ?_ ?_ (fun _ _ _ => trivial)
        · unfold wp; split <;> trivial
        · intro r t _ hreq
          rcases hreq with h | ⟨n', hn', hpos'⟩
          · cases h
          · cases hn'; exact absurd hpos' hpos
end BIB

namespace BBin
theorem random_post (size : PySize) (s : BBin K × ℕ) :
    wp ω (random size) (fun r t => ReqPos size → RPost s.1.d size t.1.v t.1.w r ∧ (s.1.d = [] → Exact size t.1.v) ∧
        (∀ m, IsMaxLabel s.1.d m → m + 1 ≤ t.1.v.length)) (fun _ _ => True) s := by
  unfold random
  rw [wp_bind, wp_self, wp_ite]
  refine ⟨fun _ => trivial, fun hnd => ?_⟩
  unfold randomSized
  rw [wp_bind, wp_assign, wp_bind, wp_self, wp_ite]
  refine ⟨fun h0 => ?_, fun h0 => ?_⟩
  · have hd0 : s.1.d = [] := List.length_eq_zero_iff.1 h0
    have hsz : size ≠ .none := fun h => hnd ⟨h, h0⟩
    rw [if_neg hsz]
    refine wp_mono (complete_post _ _) ?_ (fun _ _ _ => trivial)
    rintro r t ⟨hr, hd, hn1, ha, hst, hne, hc⟩ hreq
    rcases hreq with rfl | ⟨n, hn, hpos⟩
    · exact absurd rfl hc.num
    · refine ⟨⟨hr, hst, hne, fun h => absurd h hsz⟩, fun _ => exact_of_complete hn hc hpos (by simp; omega), ?_⟩
      intro m hm; rw [hd0] at hm; exact absurd hm.1 (by simp)
  · unfold randomBinomials
    wp_simp
    have hdn : s.1.d ≠ [] := by intro h; rw [h] at h0; exact h0 rfl
    refine ⟨fun a hb => ⟨fun _ => trivial, fun _ => ⟨fun _ => trivial, fun _ _ => ⟨fun a' hb' => ⟨fun _ => trivial,
      fun _ => ?_⟩, fun _ _ => trivial⟩⟩⟩, fun _ _ => trivial⟩
    rw [hb] at hb'; cases hb'
    have hB := IsBincount.of_ok hb
    have hane : a ≠ [] := hB.ne_nil hdn
    have hrl := revTails_length hane
    refine wp_mono (complete_post _ _) ?_ (fun _ _ _ => trivial)
    rintro r t ⟨hr, hd, hn1, ha, hst, hne, hc⟩ _
    have hcov : ∀ m, IsMaxLabel s.1.d m → m + 1 ≤ t.1.v.length := by
      intro m hm
      have h1 := hc.pre.length_le
      simp only [M.betaValues_length, params, phased, List.length_zipWith, List.length_zip, List.length_dropLast,
        List.length_tail, List.length_mapIdx, List.length_cons, hrl, Nat.min_self, Nat.add_sub_cancel] at h1
      have h2 := hB.len_max h0 hm
      omega
    exact ⟨⟨hr, hst, hne, fun _ => hcov⟩, fun h => absurd h hdn, hcov⟩
end BBin

namespace BBer
/-- `_random_bernoullis` touches only the Bernoulli path; its length is the requested one. -/
theorem bernLoop_post (a b : List ℕ) (js : List ℕ) (bern : List ℤ) (s : BBer K × ℕ) :
    wp ω (bernLoop a b bern js) (fun r t => t.1 = s.1 ∧ r.length = bern.length)
      (fun _ _ => True) s := by
  induction js generalizing bern s with
  | nil => exact ⟨rfl, rfl⟩
  | cons j js ih =>
    unfold bernLoop
    rw [wp_bind, wp_self]
    split
    · trivial
    · wp_simp
      refine ⟨fun _ => trivial, fun _ _ _ => ?_⟩
      refine wp_mono (ih _ _) ?_ (fun _ _ _ => trivial)
      rintro r t ⟨h1, h2⟩
      exact ⟨h1, by rw [h2]; simp⟩

theorem randomBernoullis_post (size : Option ℤ) (s : BBer K × ℕ) :
    wp ω (randomBernoullis size) (fun _ t => t.1 = { s.1 with bernoullis := t.1.bernoullis } ∧
        ∀ n, size = some n → (t.1.bernoullis.length : ℤ) = n)
      (fun _ _ => True) s := by
  unfold randomBernoullis
  rw [wp_bind, wp_self]
  split
  · trivial
  · rename_i n
    wp_simp
    refine ⟨fun _ => trivial, fun _ _ _ hn => ⟨fun _ => trivial, fun _ => ⟨fun _ => ⟨fun m _ => ⟨fun a _ =>
      ⟨fun _ => trivial, fun _ => ?_⟩, fun _ _ => trivial⟩, fun _ _ => trivial⟩, fun _ => ⟨rf, ?_⟩⟩⟩⟩
    · refine wp_mono (bernLoop_post _ _ _ _ _) ?_ (fun _ _ _ => trivial)
      rintro r t ⟨h1, h2⟩
      refine ⟨by rw [h1], ?_⟩
      intro k hk; cases hk
      rw [h2]; simp; omega
    · intro k hk; cases hk; simp; omega

theorem random_post (size : PySize) (s : BBer K × ℕ) :
    wp ω (random size) (fun r t => ReqPos size → RPost s.1.d size t.1.v t.1.w r ∧ (s.1.d = [] → Exact size t.1.v) ∧
        (∀ m, IsMaxLabel s.1.d m → m + 1 ≤ t.1.v.length)) (fun _ _ => True) s := by
  unfold random
  rw [wp_bind, wp_self, wp_ite]
  refine ⟨fun _ => trivial, fun hnd => ?_⟩
  unfold randomSized
  rw [wp_bind, wp_assign, wp_bind, wp_self, wp_ite]
  refine ⟨fun h0 => ?_, fun h0 => ?_⟩
  · have hd0 : s.1.d = [] := List.length_eq_zero_iff.1 h0
    have hsz : size ≠ .none := fun h => hnd ⟨h, h0⟩
    rw [if_neg hsz, wp_bind]
    refine wp_mono (randomBernoullis_post _ _) ?_ (fun _ _ _ => trivial)
    rintro _ s1 ⟨h1, hlen⟩
    wp_simp
    refine ⟨fun _ _ => ⟨fun _ => trivial, fun _ _ _ => ⟨fun v hv hreq => ?_, fun _ _ => trivial⟩⟩, fun _ _ => trivial⟩
    have hl := gather_length hv
    rw [cumsum_length] at hl
    rcases hreq with rfl | ⟨n, hn, hpos⟩
    · exact absurd rfl hsz
    · have hl' : (v.length : ℤ) = n := by rw [hl]; exact hlen n hn
      refine ⟨⟨rf, rf, length_ne_nil hl' hpos, fun h => absurd h hsz⟩, ?_, ?_⟩
      · intro _ m hm; rw [hn] at hm; cases hm; exact hl'
      · intro m hm; rw [hd0] at hm; exact absurd hm.1 (by simp)
  · have hdn : s.1.d ≠ [] := by intro h; rw [h] at h0; exact h0 rfl
    rw [wp_bind, wp_lift]
    refine ⟨fun m hm => ?_, fun _ _ => trivial⟩
    rw [wp_bind]
    refine wp_mono (randomBernoullis_post _ _) ?_ (fun _ _ _ => trivial)
    rintro _ s1 ⟨h1, hlen⟩
    wp_simp
    refine ⟨fun a hb => ⟨fun ga _ => ⟨fun gb _ => ⟨fun _ => trivial, fun _ => ⟨fun v hv => ?_, fun _ _ => trivial⟩⟩,
      fun _ _ => trivial⟩, fun _ _ => trivial⟩, fun _ _ => trivial⟩
    have hl := gather_length hv
    rw [cumsum_length] at hl
    have hl' : (v.length : ℤ) = m + 1 := by rw [hl]; exact hlen _ rfl
    have hml := maxInt_eq_ok_iff.1 hm
    refine wp_mono (complete_post _ _) ?_ (fun _ _ _ => trivial)
    rintro r t ⟨hr, hd, hn1, ha, hc⟩ hreq
    have hcov : ∀ m', IsMaxLabel s.1.d m' → m' + 1 ≤ t.1.v.length := by
      intro m' hm'
      have h1 := hc.pre.length_le
      have h2 := hml.unique hm'
      simp only at h1
      omega
    have hreq' : ∃ n, (if size = PySize.none then PySize.int 1 else size).toInt? = some n ∧ 1 ≤ n := by
      rcases hreq with rfl | ⟨n, hn, hpos⟩
      · exact ⟨1, rfl, le_refl _⟩
      · by_cases hs : size = .none
        · subst hs; cases hn
        · rw [if_neg hs]; exact ⟨n, hn, hpos⟩
    obtain ⟨n, hn, hpos⟩ := hreq'
    have hh := rpost_of_complete (d := s.1.d) hn hc hpos
    exact ⟨⟨hr, hh.stick, hh.ne, fun _ => hcov⟩, fun h => absurd h hdn, hcov⟩
end BBer

namespace BID
theorem updateAll_post (F : SpecFun K) (a b : List ℕ) (js : List ℕ) (s : BID K × ℕ) :
    wp ω (updateAll F a b js) (fun _ t => t.1.d = s.1.d ∧ s.1.dBase.length ≤ t.1.dBase.length) (fun _ _ => True) s := by
  induction js generalizing s with
  | nil => exact ⟨rfl, le_refl _⟩
  | cons j js ih =>
    unfold updateAll
    rw [wp_bind]
    have h1 : wp ω (updateOne F a b j) (fun _ t => t.1.d = s.1.d ∧ s.1.dBase.length ≤ t.1.dBase.length)
        (fun _ _ => True) s := by
      have hset : ∀ (x : ℕ) (t : BID K), (setBase j x t).d = t.d ∧ t.dBase.length ≤ (setBase j x t).dBase.length := by
        intro x t
        unfold setBase
        split <;> simp
      unfold updateOne
      wp_simp
      refine ⟨fun _ => hset _ _, fun _ => ⟨fun _ _ => ⟨fun _ _ => ⟨fun _ _ => ⟨fun _ _ => ⟨fun _ => trivial, fun _ =>
        ⟨fun _ _ => ⟨fun _ => ⟨fun _ => trivial, fun _ _ => hset _ _⟩, fun _ => hset _ _⟩, fun _ _ => trivial⟩⟩,
        fun _ _ => trivial⟩, fun _ _ => trivial⟩, fun _ _ => trivial⟩, fun _ _ => trivial⟩⟩
    refine wp_mono h1 ?_ (fun _ _ _ => trivial)
    rintro _ s1 ⟨hd, hl⟩
    refine wp_mono (ih s1) ?_ (fun _ _ _ => trivial)
    rintro _ s2 ⟨hd2, hl2⟩
    exact ⟨hd2.trans hd, hl.trans hl2⟩

theorem drawBase_post (alpha : K) (a b dB js : List ℕ) (s : BID K × ℕ) :
    wp ω (drawBase alpha a b dB js) (fun r t => t.1 = s.1 ∧ r.length = js.length) (fun _ t => t.1 = s.1) s := by
  induction js generalizing s with
  | nil => exact ⟨rfl, rfl⟩
  | cons j js ih =>
    unfold drawBase
    rw [wp_bind, wp_beta]
    refine ⟨fun _ => rfl, fun _ _ => ?_⟩
    rw [wp_bind]
    refine wp_mono (ih _) ?_ (fun _ t h => h)
    rintro r t ⟨h, hl⟩
    exact ⟨h, by simp [hl]⟩

theorem randomFitted_post (F : SpecFun K) (s : BID K × ℕ) (hs : s.1.d ≠ []) (hnn : NonNegLabels s.1.d) :
    wp ω (randomFitted F) (fun r t => r = t.1.w ∧ t.1.w = stickWeights t.1.v ∧ t.1.v ≠ [] ∧
        (∀ m, IsMaxLabel s.1.d m → m + 1 ≤ t.1.v.length)) (fun _ _ => True) s := by
  unfold randomFitted
  rw [wp_bind, wp_self, wp_bind, wp_lift]
  refine ⟨fun m hm => ?_, fun _ _ => trivial⟩
  have hml := maxInt_eq_ok_iff.1 hm
  have hm0 : 0 ≤ m := hnn m hml.1
  simp only []
  rw [wp_bind, wp_assign]
  generalize hs1 : (if (s.1.dBase.length : ℤ) < m + 1 then
      { s.1 with dBase := s.1.dBase ++ List.replicate (m + 1 - s.1.dBase.length).toNat 0 }
    else if (s.1.dBase.length : ℤ) > m + 1 then { s.1 with dBase := Py.sliceTo s.1.dBase (m + 1) }
    else s.1 : BID K) = s1
  have hlen : (s1.dBase.length : ℤ) = m + 1 := by
    subst hs1
    split
    · simp; omega
    · split
      · simp only [sliceTo_nonneg _ (by omega : 0 ≤ m + 1), List.length_take]; omega
      · omega
  rw [wp_bind, wp_self, wp_bind, wp_lift]
  refine ⟨fun k _ => ?_, fun _ _ => trivial⟩
  rw [wp_bind, wp_lift]
  refine ⟨fun a _ => ?_, fun _ _ => trivial⟩
  simp only []
  rw [wp_bind]
  refine wp_mono (drawBase_post _ _ _ _ _ _) ?_ (fun _ _ _ => trivial)
  rintro vb s2 ⟨h2, _⟩
  rw [wp_bind, wp_assign, wp_bind]
  refine wp_mono (updateAll_post _ _ _ _ _) ?_ (fun _ _ _ => trivial)
  rintro _ s3 ⟨_, hl3⟩
  rw [wp_bind, wp_assign, wp_bind, wp_self, wp_bind, wp_lift]
  refine ⟨fun v hv => ?_, fun _ _ => trivial⟩
  wp_simp
  have hvl := BBer.gather_length hv
  rw [List.length_map] at hvl
  have hbig : m + 1 ≤ (v.length : ℤ) := by
    simp only [h2] at hl3
    simp only at hvl
    omega
  refine ⟨trivial, trivial, ?_, ?_⟩
  · rintro rfl; simp at hbig; omega
  · intro m' hm'; rw [← hml.unique hm']; exact hbig

theorem random_post (F : SpecFun K) (size : PySize) (s : BID K × ℕ) (hnn : NonNegLabels s.1.d) :
    wp ω (random F size) (fun r t => ReqPos size → RPost s.1.d size t.1.v t.1.w r ∧ (s.1.d = [] → Exact size t.1.v) ∧
        (∀ m, IsMaxLabel s.1.d m → m + 1 ≤ t.1.v.length)) (fun _ _ => True) s := by
  unfold random
  rw [wp_bind, wp_self, wp_ite]
  refine ⟨fun _ => trivial, fun hnd => ?_⟩
  split
  · trivial
  · trivial
  · rw [wp_bind, wp_assign, wp_ite]
    refine ⟨fun h0 => ?_, fun h0 => ?_⟩
    · have hd0 : s.1.d = [] := List.length_eq_zero_iff.1 h0
      have hsz : size ≠ .none := fun h => hnd ⟨h, h0⟩
      rw [wp_bind]
      refine wp_mono (complete_post _ _) ?_ (fun _ _ _ => trivial)
      rintro r t ⟨hd, hn1, ha, hst, hc⟩
      wp_simp
      intro hreq
      rcases hreq with rfl | ⟨n, hn, hpos⟩
      · exact absurd rfl hsz
      · have he := exact_of_complete hn hc hpos (by simp; omega)
        refine ⟨⟨rf, hst, length_ne_nil (he n hn) hpos, fun h => absurd h hsz⟩, fun _ => he, ?_⟩
        intro m hm; rw [hd0] at hm; exact absurd hm.1 (by simp)
    · have hdn : s.1.d ≠ [] := by intro h; rw [h] at h0; exact h0 rfl
      refine wp_mono (randomFitted_post F _ hdn hnn) ?_ (fun _ _ _ => trivial)
      rintro r t ⟨h1, h2, h3, h4⟩ _
      exact ⟨⟨h1, h2, h3, fun _ => h4⟩, fun h => absurd h hdn, h4⟩
end BID
end Verif
