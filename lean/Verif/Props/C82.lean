import Verif.Lemmas.RandomPost
import Verif.Lemmas.BIDOk
import Verif.Lemmas.Reach
import Verif.Lemmas.Demo
import Verif.Props.C08

/-!
# C82: the inner sticks of a fitted `BetaInDirichlet` have the conjugate parameters given the inner labels

For every history of calls and every draw with data that returns.  Let `z` be the inner labels held before the call, cut or filled with zeros to the positions `0 .. m` in use.
The inner stick of every label `c` up to the largest one is drawn anew from `Beta(1 + A, alpha + B)`, where `A` and `B` are the numbers of fitted labels equal to, and
larger than, a position, summed over the positions with inner label `c` (`C82_sticks`).  Sticks that the label update adds are drawn from the prior `Beta(1, alpha)`
at later, increasing stream positions.  The sticks returned are those of the new inner labels, the table of counts agrees with the new labels, and the weights
are the stick-breaking image (`C82_result`).
-/

set_option linter.unusedSectionVars false

namespace Verif
open Spec
variable {K : Type} [Field K] [LinearOrder K] [IsStrictOrderedRing K] {ω : Oracle K}

/-- The sum of `f` over the positions `0 .. m` with inner label `c`. -/
def labelSum (z : List ℕ) (m : ℕ) (f : ℕ → ℕ) (c : ℕ) : ℕ := ∑ i ∈ (Finset.range (m + 1)).filter (fun i => z[i]? = some c), f i

/-- The inner labels cut or filled with zeros to `m + 1` positions. -/
def cutLabels (z : List ℕ) (m : ℕ) : List ℕ := (z ++ List.replicate (m + 1) 0).take (m + 1)

namespace BID

theorem baseSum_eq {z : List ℕ} {m : ℕ} (hz : z.length = m + 1) (f : ℕ → ℕ) (c : ℕ) : baseSum ((List.range (m + 1)).map f) z c = labelSum z m f c := by
  have hzip : List.zip z ((List.range (m + 1)).map f) = (List.range (m + 1)).map (fun i => ((z[i]?).getD 0, f i)) := by
    refine list_ext_range (by simp [hz]) fun i hi => ?_
    have hi' : i < m + 1 := by simpa [hz] using hi
    refine List.getElem?_zip_eq_some.2 ⟨?_, by simp [hi']⟩
    simp [List.getElem?_eq_getElem (show i < z.length by omega)]
  unfold baseSum labelSum
  rw [hzip, List.filter_map, List.map_map, Finset.sum_filter]
  have : ∀ n ≤ m + 1, (((List.range n).filter ((fun x : ℕ × ℕ => decide (x.1 = c)) ∘ fun i => ((z[i]?).getD 0, f i))).map
      (Prod.snd ∘ fun i => ((z[i]?).getD 0, f i))).sum = ∑ i ∈ Finset.range n, if z[i]? = some c then f i else 0 := by
    intro n
    induction n with
    | zero => intro _; rfl
    | succ n ih =>
      intro hn
      rw [List.range_succ, List.filter_append, List.map_append, List.sum_append, ih (by omega), Finset.sum_range_succ]
      congr 1
      have hg := List.getElem?_eq_getElem (show n < z.length by omega)
      by_cases hc : z[n]? = some c
      · rw [if_pos hc, List.filter_cons_of_pos (by simp [hc])]; simp
      · rw [if_neg hc, List.filter_cons_of_neg (by rw [hg] at hc; simpa [hg] using hc)]; simp
  rw [this (m + 1) le_rfl]

theorem drawBase_values (alpha : K) (a b z : List ℕ) (k o : ℕ) (s : BID K × ℕ) :
    wp ω (drawBase alpha a b z ((List.range k).map (fun i => o + i))) (fun r t => t.1 = s.1 ∧ t.2 = s.2 + k ∧ r = (List.range k).map (fun i =>
      ω.beta (s.2 + i) (1 + (baseSum a z (o + i) : K)) (alpha + (baseSum b z (o + i) : K)))) (fun _ _ => True) s := by
  induction k generalizing o s with
  | zero => exact ⟨rfl, rfl, rfl⟩
  | succ k ih =>
    rw [List.range_succ_eq_map, List.map_cons, List.map_map]
    have e : (fun i => o + i) ∘ Nat.succ = fun i => (o + 1) + i := by funext i; simp; omega
    rw [e]
    unfold drawBase
    rw [wp_bind, wp_beta]
    refine ⟨fun _ => trivial, fun _ _ => ?_⟩
    rw [wp_bind]
    refine wp_mono (ih _ _) ?_ (fun _ _ _ => trivial)
    rintro r t ⟨h1, h2, h3⟩
    rw [wp_pure]
    refine ⟨h1, by rw [h2]; dsimp only; omega, ?_⟩
    rw [h3, List.map_cons, List.map_map]
    congr 1
    apply List.map_congr_left
    intro i _
    simp only [Function.comp, Nat.succ_eq_add_one]
    rw [show s.2 + 1 + i = s.2 + (i + 1) by omega, show o + 1 + i = o + (i + 1) by omega]

/-- What the update of the labels does to the sticks. -/
structure Grown (ω : Oracle K) (alpha : K) (old new : List K) (lo hi : ℕ) : Prop where
  app : ∃ is : List ℕ, new = old ++ is.map (fun i => ω.beta i 1 alpha) ∧ is.Pairwise (· < ·) ∧ ∀ i ∈ is, lo ≤ i ∧ i < hi
  le : lo ≤ hi

theorem Grown.refl (alpha : K) (l : List K) (i : ℕ) : Grown ω alpha l l i i := ⟨⟨[], by simp, .nil, nofun⟩, le_rfl⟩

theorem Grown.trans {alpha : K} {l1 l2 l3 : List K} {i j k : ℕ} (h1 : Grown ω alpha l1 l2 i j) (h2 : Grown ω alpha l2 l3 j k) : Grown ω alpha l1 l3 i k := by
  obtain ⟨⟨a, ha, pa, ba⟩, la⟩ := h1
  obtain ⟨⟨b, hb, pb, bb⟩, lb⟩ := h2
  refine ⟨⟨a ++ b, by rw [hb, ha]; simp, List.pairwise_append.2 ⟨pa, pb, fun x hx y hy => ?_⟩, fun x hx => ?_⟩, la.trans lb⟩
  · exact lt_of_lt_of_le (ba x hx).2 (bb y hy).1
  · rcases List.mem_append.1 hx with h | h
    · have := ba x h; omega
    · have := bb x h; omega

theorem updateOne_grown (F : SpecFun K) (a b : List ℕ) (j : ℕ) (s : BID K × ℕ) :
    wp ω (updateOne F a b j) (fun _ t => t.1.d = s.1.d ∧ t.1.alpha = s.1.alpha ∧ Grown ω s.1.alpha s.1.vBase t.1.vBase s.2 t.2) (fun _ _ => True) s := by
  have hset : ∀ (x : ℕ) (t : BID K), (setBase j x t).d = t.d ∧ (setBase j x t).alpha = t.alpha ∧ (setBase j x t).vBase = t.vBase := by
    intro x t
    unfold setBase
    split <;> exact ⟨rfl, rfl, rfl⟩
  unfold updateOne
  rw [wp_bind, wp_self, wp_ite]
  refine ⟨fun _ => ?_, fun _ => ?_⟩
  · rw [wp_assign]
    exact ⟨(hset _ _).1, (hset _ _).2.1, by dsimp only; rw [(hset _ _).2.2]; exact .refl _ _ _⟩
  · rw [wp_bind, wp_lift]
    refine ⟨fun _ _ => ?_, fun _ _ => trivial⟩
    rw [wp_bind, wp_lift]
    refine ⟨fun _ _ => ?_, fun _ _ => trivial⟩
    rw [wp_bind, wp_lift]
    refine ⟨fun _ _ => ?_, fun _ _ => trivial⟩
    rw [wp_bind, wp_lift]
    refine ⟨fun lp _ => ?_, fun _ _ => trivial⟩
    rw [wp_bind, wp_gumbelMax]
    refine ⟨fun _ => trivial, fun _ => ?_⟩
    rw [wp_bind, wp_assign, wp_bind, wp_self, wp_bind, wp_lift]
    refine ⟨fun _ _ => ?_, fun _ _ => trivial⟩
    rw [wp_whenM]
    refine ⟨fun _ => ?_, fun _ => ?_⟩
    · rw [wp_bind, wp_beta]
      refine ⟨fun _ => trivial, fun _ _ => ?_⟩
      rw [wp_assign]
      refine ⟨(hset _ _).1, (hset _ _).2.1, ?_⟩
      dsimp only
      rw [(hset _ _).2.2, (hset _ _).2.1]
      exact ⟨⟨[s.2 + 1], rfl, List.pairwise_singleton _ _, fun i hi => by rw [List.mem_singleton] at hi; omega⟩, by omega⟩
    · refine ⟨(hset _ _).1, (hset _ _).2.1, ?_⟩
      dsimp only
      rw [(hset _ _).2.2]
      exact ⟨⟨[], by simp, .nil, nofun⟩, by omega⟩

theorem updateAll_grown (F : SpecFun K) (a b js : List ℕ) (s : BID K × ℕ) :
    wp ω (updateAll F a b js) (fun _ t => t.1.d = s.1.d ∧ t.1.alpha = s.1.alpha ∧ Grown ω s.1.alpha s.1.vBase t.1.vBase s.2 t.2) (fun _ _ => True) s := by
  induction js generalizing s with
  | nil => exact ⟨rfl, rfl, .refl _ _ _⟩
  | cons j js ih =>
    unfold updateAll
    rw [wp_bind]
    refine wp_mono (updateOne_grown F a b j s) ?_ (fun _ _ _ => trivial)
    rintro _ s1 ⟨h1, h2, h3⟩
    refine wp_mono (ih s1) ?_ (fun _ _ _ => trivial)
    rintro _ s2 ⟨g1, g2, g3⟩
    rw [h2] at g3
    exact ⟨g1.trans h1, g2.trans h2, h3.trans g3⟩

theorem cut_eq (s : BID K) {m : ℕ} :
    (if (s.dBase.length : ℤ) < (m : ℤ) + 1 then { s with dBase := s.dBase ++ List.replicate ((m : ℤ) + 1 - s.dBase.length).toNat 0 }
    else if (s.dBase.length : ℤ) > (m : ℤ) + 1 then { s with dBase := Py.sliceTo s.dBase ((m : ℤ) + 1) }
    else s : BID K) = { s with dBase := cutLabels s.dBase m } := by
  unfold cutLabels
  split
  · congr 1
    rw [List.take_append, List.take_of_length_le (by omega), List.take_replicate]
    congr 2
    omega
  · split
    · congr 1
      rw [sliceTo_nonneg _ (by omega), show ((m : ℤ) + 1).toNat = m + 1 by omega, List.take_append_of_le_length (by omega)]
    · have hl : s.dBase.length = m + 1 := by omega
      rw [List.take_append_of_le_length (by omega), List.take_of_length_le (by omega)]

theorem cutLabels_length (z : List ℕ) (m : ℕ) : (cutLabels z m).length = m + 1 := by simp [cutLabels]

theorem random_fitted_draw (F : SpecFun K) {size : PySize} (s : BID K × ℕ) {m : ℕ} (hm : IsMaxLabel s.1.d m) :
    wp ω (random F size) (fun r t =>
      (∃ vb hi, (∀ c, (∃ c' ∈ cutLabels s.1.dBase m, c ≤ c') → vb[c]? = some (ω.beta (s.2 + c) (1 + (labelSum (cutLabels s.1.dBase m) m (nEq s.1.d) c : K))
        (s.1.alpha + (labelSum (cutLabels s.1.dBase m) m (nGt s.1.d) c : K)))) ∧
        (∀ c < vb.length, ∃ c' ∈ cutLabels s.1.dBase m, c ≤ c') ∧ Grown ω s.1.alpha vb t.1.vBase (s.2 + vb.length) hi) ∧
      t.1.v.length = t.1.dBase.length ∧ (∀ (i c : ℕ), t.1.dBase[i]? = some c → t.1.v[i]? = t.1.vBase[c]?) ∧
      t.1.countBase = (List.range t.1.vBase.length).map (fun c => t.1.dBase.count c) ∧ r = stickWeights t.1.v) (fun _ _ => True) s := by
  have hd : s.1.d ≠ [] := List.ne_nil_of_mem hm.1
  have hl : ¬ s.1.d.length = 0 := fun h => hd (List.length_eq_zero_iff.1 h)
  unfold random
  rw [wp_bind, wp_self, wp_ite]
  refine ⟨fun h => absurd h.2 hl, fun _ => ?_⟩
  split
  · trivial
  · trivial
  · rw [wp_bind, wp_assign, if_neg hl]
    unfold randomFitted
    rw [wp_bind, wp_self, wp_bind, wp_lift]
    dsimp only
    rw [maxInt_eq_ok_iff.2 hm]
    refine ⟨?_, nofun⟩
    rintro _ ⟨⟩
    rw [wp_bind, wp_assign, wp_bind, wp_self]
    dsimp only
    rw [cut_eq ({ s.1 with v := [], vBase := [] } : BID K)]
    dsimp only
    have hzl := cutLabels_length s.1.dBase m
    generalize cutLabels s.1.dBase m = z at hzl ⊢
    have hzne : z ≠ [] := by rintro rfl; simp at hzl
    obtain ⟨k, hk, hkm, hkmax⟩ := maxNat_ok hzne
    rw [hk, wp_bind, wp_lift]
    refine ⟨?_, nofun⟩
    rintro _ ⟨⟩
    rw [wp_bind, wp_lift]
    refine ⟨fun a hb => ?_, fun _ _ => trivial⟩
    have hB := IsBincount.of_ok hb
    have hal : a.length = m + 1 := by have := hB.length_eq hm; omega
    have hea : a = (List.range (m + 1)).map (nEq s.1.d) := by rw [← hal]; exact hB.eq_map
    have heb : revTails a = (List.range (m + 1)).map (nGt s.1.d) := by rw [← hal]; exact hB.revTails_eq_map (hB.ne_nil hd)
    rw [wp_bind, show List.range (k + 1) = (List.range (k + 1)).map (fun i => 0 + i) by simp]
    refine wp_mono (drawBase_values _ _ _ _ _ _ _) ?_ (fun _ _ _ => trivial)
    rintro vb s2 ⟨h1, h2, h3⟩
    rw [wp_bind, wp_assign, wp_bind]
    refine wp_mono (updateAll_grown _ _ _ _ _) ?_ (fun _ _ _ => trivial)
    rintro _ s3 ⟨g1, g2, g3⟩
    rw [wp_bind, wp_assign, wp_bind, wp_self, wp_bind, wp_lift]
    refine ⟨fun v hv => ?_, fun _ _ => trivial⟩
    rw [wp_bind, wp_assign, wp_bind, wp_self, wp_pure]
    dsimp only at g3 hv h3 ⊢
    have hvbl : vb.length = k + 1 := by rw [h3]; simp
    refine ⟨⟨vb, s3.2, fun c hc => ?_, fun c hc => ⟨k, hkm, by omega⟩, ?_⟩, ?_, fun i c hi => ?_, rfl, rfl⟩
    · obtain ⟨c', hc', hcc⟩ := hc
      have := hkmax c' hc'
      rw [h3, List.getElem?_map, List.getElem?_range (by omega), Option.map_some, hea, ← hea, heb, hea, baseSum_eq hzl, baseSum_eq hzl]
      simp
    · rw [h1, h2, ← hvbl] at g3
      exact g3
    · have := BBer.gather_length hv
      rw [this]; simp
    · have hi' : (s3.1.dBase.map (fun (j : ℕ) => (j : ℤ)))[i]? = some (c : ℤ) := by rw [List.getElem?_map, hi]; rfl
      rw [gather_get hv i hi' (by omega)]
      simp

end BID

variable (log : K → K) (pos : ℕ) (ops : List (WOp K)) (F : SpecFun K) {alpha a : K}

theorem C82_sticks {s : BID K × ℕ} (hs : (BID.cls F).run log ω (BID.init alpha a, pos) ops = s) {m : ℕ} (hm : IsMaxLabel s.1.d m)
    {size : PySize} {r : List K} {t : BID K × ℕ} (h : BID.random F size ω s = (.ok r, t)) :
    ∃ (vb : List K) (is : List ℕ), t.1.vBase = vb ++ is.map (fun i => ω.beta i 1 alpha) ∧ is.Pairwise (· < ·) ∧ (∀ i ∈ is, s.2 + vb.length ≤ i) ∧
      (∀ c < vb.length, ∃ c' ∈ cutLabels s.1.dBase m, c ≤ c') ∧
      ∀ c, (∃ c' ∈ cutLabels s.1.dBase m, c ≤ c') → vb[c]? = some (ω.beta (s.2 + c) (1 + (labelSum (cutLabels s.1.dBase m) m (nEq s.1.d) c : K))
        (alpha + (labelSum (cutLabels s.1.dBase m) m (nGt s.1.d) c : K))) := by
  have hh := BID.reach_hyper (ω := ω) log pos ops F alpha a
  rw [hs] at hh
  obtain ⟨⟨vb, hi, h1, h2, ⟨is, h3, h4, h5⟩, -⟩, -⟩ := wp_of_ok h (BID.random_fitted_draw F s hm)
  rw [hh.1] at h1 h3
  exact ⟨vb, is, h3, h4, fun i hi => (h5 i hi).1, h2, h1⟩

theorem C82_result {s : BID K × ℕ} {m : ℕ} (hm : IsMaxLabel s.1.d m) {size : PySize} {r : List K} {t : BID K × ℕ} (h : BID.random F size ω s = (.ok r, t)) :
    t.1.v.length = t.1.dBase.length ∧ (∀ (i c : ℕ), t.1.dBase[i]? = some c → t.1.v[i]? = t.1.vBase[c]?) ∧
      t.1.countBase = (List.range t.1.vBase.length).map (fun c => t.1.dBase.count c) ∧ IsStick t.1.v r := by
  obtain ⟨-, h1, h2, h3, h4⟩ := wp_of_ok h (BID.random_fitted_draw F s hm)
  exact ⟨h1, h2, h3, by rw [h4]; exact stickWeights_isStick _⟩

/-! Non-vacuity: `fit([1, 0])` with `a = 1`. -/
example : (BID.random ⟨id, id⟩ .none demo ((BID.cls ⟨id, id⟩).run id demo (BID.init 1 1, 0) [.fit [1, 0]]) : Except PyErr (List ℚ) × BID ℚ × ℕ).1.isOk = true ∧ IsMaxLabel [1, 0] (1 : ℕ) :=
  ⟨by decide +kernel, by simp [IsMaxLabel]⟩

end Verif
