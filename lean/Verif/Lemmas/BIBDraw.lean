import Verif.Lemmas.Reach
import Verif.Props.C08

/-! # The draws of a fitted `BetaInBeta` with `0 < x < 1`, one by one -/

set_option linter.unusedSectionVars false

namespace Verif
open Spec
variable {K : Type} [Field K] [LinearOrder K] [IsStrictOrderedRing K] {ω : Oracle K}

namespace BIB

/-- The next `p` and the next stream position, from the sticks `v` and the old `p` at position `i`: what each `p_method` is documented to do. -/
def nextP (ω : Oracle K) (s : BIB K) (v : List K) (p : K) (i : ℕ) : K × ℕ := match s.pMethod with
  | .independent => (ω.beta i s.a s.b, i + 1)
  | .geometric => (ω.beta i (s.a + (s.d.length : K)) (s.b + ((s.d.sum : ℤ) : K)), i + 1)
  | .maxLikelihood => ((ω.optim i v [s.x, s.alpha, s.a, s.b, p]).getD p, i + 1)
  | .inverseSampling => ((ω.optim (i + 1) v [s.x, s.alpha, s.a, s.b, ω.unif i]).getD p, i + 2)
  | _ => (p, i)

/-- The same parameters of the class. -/
structure SamePar (s t : BIB K) : Prop where
  x : t.x = s.x
  alpha : t.alpha = s.alpha
  a : t.a = s.a
  b : t.b = s.b
  m : t.pMethod = s.pMethod
  d : t.d = s.d

theorem nextP_samePar {s t : BIB K} (h : SamePar s t) (v : List K) (p : K) (i : ℕ) : nextP ω t v p i = nextP ω s v p i := by
  unfold nextP
  rw [h.m, h.x, h.alpha, h.a, h.b, h.d]

theorem nextP_mem (hω : ω.Legal) (s : BIB K) (v : List K) {p : K} (hp : 0 ≤ p ∧ p ≤ 1) (i : ℕ) : 0 ≤ (nextP ω s v p i).1 ∧ (nextP ω s v p i).1 ≤ 1 := by
  have ho : ∀ j ps, 0 ≤ (ω.optim j v ps).getD p ∧ (ω.optim j v ps).getD p ≤ 1 := by
    intro j ps
    cases h : ω.optim j v ps with
    | none => exact hp
    | some q => exact hω.optim_mem _ _ _ _ h
  unfold nextP
  split
  · exact ⟨hω.beta_nonneg _ _ _, hω.beta_le_one _ _ _⟩
  · exact ⟨hω.beta_nonneg _ _ _, hω.beta_le_one _ _ _⟩
  · exact ho _ _
  · exact ho _ _
  · exact hp

theorem randomP_next {s : BIB K × ℕ} (h : Valid s.1) (hx : 0 < s.1.x ∧ s.1.x < 1) (hd : s.1.d ≠ []) :
    randomP ω s = (.ok (), ({ s.1 with p := (nextP ω s.1 s.1.v s.1.p s.2).1 }, (nextP ω s.1 s.1.v s.1.p s.2).2)) := by
  have hg := geoParams_pos h
  have hbad1 : ¬ (s.1.a + (s.1.d.length : K) ≤ 0 ∨ s.1.b + ((s.1.d.sum : ℤ) : K) ≤ 0) := by
    push Not; exact hg
  have hbad2 : ¬ (s.1.a ≤ 0 ∨ s.1.b ≤ 0) := by
    push Not; exact ⟨h.a, h.b⟩
  have hl : s.1.d.length ≠ 0 := fun h => hd (List.length_eq_zero_iff.1 h)
  rw [← wp_eq_ok]
  unfold randomP drawGeometricP drawPriorP
  rw [wp_bind, wp_self, if_neg hx.2.ne, if_neg hx.1.ne', if_neg hl]
  have hm := h.method
  unfold nextP
  split
  · rename_i e
    rw [e]
    exact ⟨rfl, rfl⟩
  · rename_i e
    wp_simp
    simp only [e]
    exact ⟨fun hb => hbad2 hb, fun _ _ => ⟨trivial, trivial⟩⟩
  · rename_i e
    wp_simp
    simp only [e]
    exact ⟨fun hb => hbad1 hb, fun _ _ => ⟨trivial, trivial⟩⟩
  · rename_i e
    wp_simp
    simp only [e]
    exact ⟨trivial, trivial⟩
  · rename_i e
    wp_simp
    simp only [e]
    exact ⟨fun hb => by omega, fun _ => ⟨trivial, by simp⟩⟩
  · rename_i e; rcases hm.1 with h1 | h1 | h1
    exacts [absurd e h1, absurd h1 hx.1.ne', absurd h1 hx.2.ne]
  · rename_i e; exact absurd e hm.2

/-- Prior parameters of a stick for a given `p`. -/
def priorPar (s : BIB K) (p : K) : K × K := (1 + s.x / (1 - s.x) * p, s.alpha + s.x / (1 - s.x) * (1 - p))
/-- Posterior parameters of stick `j` for a given `p`. -/
def postPar (s : BIB K) (p : K) (j : ℕ) : K × K :=
  (1 + s.x / (1 - s.x) * p + (nEq s.d j : K), s.alpha + s.x / (1 - s.x) * (1 - p) + (nGt s.d j : K))

theorem priorPar_pos {s : BIB K} (h : Valid s) (hx : s.x < 1) {p : K} (hp : 0 ≤ p ∧ p ≤ 1) : 0 < (priorPar s p).1 ∧ 0 < (priorPar s p).2 := by
  have h1 : 0 ≤ s.x / (1 - s.x) := div_nonneg h.x0 (by linarith)
  have h2 := mul_nonneg h1 hp.1
  have h3 := mul_nonneg h1 (by linarith [hp.2] : 0 ≤ 1 - p)
  have := h.alpha
  unfold priorPar
  constructor <;> dsimp only <;> linarith

theorem complete_next (hω : ω.Legal) {s : BIB K × ℕ} (h : Valid s.1) (hx : 0 < s.1.x ∧ s.1.x < 1) (hd : s.1.d ≠ []) (hv : s.1.v ≠ []) (hw : s.1.w = stickWeights s.1.v)
    (n : ℕ) {size : PySize} (hsz : size.toInt? = some (n : ℤ)) :
    ∃ r t v2, complete size ω s = (.ok r, t) ∧ r = stickWeights t.1.v ∧ t.1.v = s.1.v ++ v2 ∧ SamePar s.1 t.1 ∧ t.1.p = (nextP ω s.1 s.1.v s.1.p s.2).1 ∧
      SticksDrawn ω (nextP ω s.1 s.1.v s.1.p s.2).2 (n - s.1.v.length) (fun _ => priorPar s.1 (nextP ω s.1 s.1.v s.1.p s.2).1) v2 ∧
      t.2 = (nextP ω s.1 s.1.v s.1.p s.2).2 + (n - s.1.v.length) := by
  suffices hh : wp ω (complete size) (fun r t => ∃ v2, r = stickWeights t.1.v ∧ t.1.v = s.1.v ++ v2 ∧ SamePar s.1 t.1 ∧ t.1.p = (nextP ω s.1 s.1.v s.1.p s.2).1 ∧
      SticksDrawn ω (nextP ω s.1 s.1.v s.1.p s.2).2 (n - s.1.v.length) (fun _ => priorPar s.1 (nextP ω s.1 s.1.v s.1.p s.2).1) v2 ∧
      t.2 = (nextP ω s.1 s.1.v s.1.p s.2).2 + (n - s.1.v.length)) (fun _ _ => False) s by
    obtain ⟨r, t, h1, v2, h2⟩ := wp_total hh
    exact ⟨r, t, v2, h1, h2⟩
  unfold complete
  rw [checkSize_ok hsz, hsz, wp_bind, wp_lift]
  refine ⟨fun _ _ => ?_, nofun⟩
  rw [wp_bind, wp_self, wp_bind, wp_whenM]
  refine ⟨fun _ => ?_, fun hc => absurd (fun e => hv (List.length_eq_zero_iff.1 e)) hc⟩
  refine wp_mono (wp_eq_ok.2 (randomP_next h hx hd)) ?_ (fun _ _ h => h)
  rintro _ _ ⟨rfl, rfl⟩
  have hp := nextP_mem hω s.1 s.1.v ⟨h.p0, h.p1⟩ s.2
  have hpos := priorPar_pos h hx.2 hp
  unfold newSticks
  wp_simp
  refine ⟨fun hlt => ⟨fun _ => ⟨fun hb => ?_, fun _ _ _ => ?_⟩, fun hc => absurd hx.2 hc⟩, fun hlt => ?_⟩
  · rcases hb with hb | hb | hb
    · exact absurd hpos.1 (not_lt.2 hb)
    · exact absurd hpos.2 (not_lt.2 hb)
    · omega
  · refine ⟨_, trivial, rfl, ⟨rfl, rfl, rfl, rfl, rfl, rfl⟩, trivial, ?_, by rw [show ((n : ℤ) - (s.1.v.length : ℤ)).toNat = n - s.1.v.length by omega]⟩
    have e : ((n : ℤ) - (s.1.v.length : ℤ)).toNat = n - s.1.v.length := by omega
    have e2 : List.replicate (n - s.1.v.length) (priorPar s.1 (nextP ω s.1 s.1.v s.1.p s.2).1) =
        (List.range (n - s.1.v.length)).map (fun _ => priorPar s.1 (nextP ω s.1 s.1.v s.1.p s.2).1) := by simp
    rw [e]
    show SticksDrawn _ _ _ _ (M.betaValues ω _ (List.replicate (n - s.1.v.length) (priorPar s.1 (nextP ω s.1 s.1.v s.1.p s.2).1)))
    rw [e2]
    exact sticksDrawn_betaValues _ _ _ _
  · refine ⟨[], hw, by simp, ⟨rfl, rfl, rfl, rfl, rfl, rfl⟩, trivial, ?_, by rw [show n - s.1.v.length = 0 by omega, Nat.add_zero]⟩
    have e : n - s.1.v.length = 0 := by omega
    rw [e]
    exact ⟨rfl, fun j hj => absurd hj (by omega)⟩

/-- The whole call. -/
theorem random_next (hω : ω.Legal) {s : BIB K × ℕ} (h : Valid s.1) (hx : 0 < s.1.x ∧ s.1.x < 1) (hd : s.1.d ≠ []) {size : PySize} {n N : ℕ}
    (hn : EffSize s.1.d size n) (hN : IsMaxLabel s.1.d ((N : ℤ) - 1)) :
    ∃ r t v1 v2, random size ω s = (.ok r, t) ∧ r = stickWeights t.1.v ∧ t.1.v = v1 ++ v2 ∧
      SticksDrawn ω (nextP ω s.1 [] s.1.p s.2).2 (min n N) (postPar s.1 (nextP ω s.1 [] s.1.p s.2).1) v1 ∧
      t.1.p = (nextP ω s.1 v1 (nextP ω s.1 [] s.1.p s.2).1 ((nextP ω s.1 [] s.1.p s.2).2 + min n N)).1 ∧
      SticksDrawn ω (nextP ω s.1 v1 (nextP ω s.1 [] s.1.p s.2).1 ((nextP ω s.1 [] s.1.p s.2).2 + min n N)).2 (n - min n N) (fun _ => priorPar s.1 t.1.p) v2 ∧
      t.2 = (nextP ω s.1 v1 (nextP ω s.1 [] s.1.p s.2).1 ((nextP ω s.1 [] s.1.p s.2).2 + min n N)).2 + (n - min n N) := by
  have hl : s.1.d.length ≠ 0 := fun h => hd (List.length_eq_zero_iff.1 h)
  obtain ⟨a_c, hb, hA⟩ := bincount_ok h.labels
  have hane := hA.ne_nil hd
  have hlen : a_c.length = N := by have := hA.length_eq hN; omega
  have hlenb := revTails_length hane
  have hn1 : 1 ≤ n := by
    rcases hn with ⟨-, h1⟩ | ⟨-, h1⟩
    · exact h1
    · have := h.labels _ h1.1; omega
  generalize hq : nextP ω s.1 [] s.1.p s.2 = q
  have hqm : 0 ≤ q.1 ∧ q.1 ≤ 1 := hq ▸ nextP_mem hω s.1 [] ⟨h.p0, h.p1⟩ s.2
  have hmain : ∀ sz : PySize, sz.toInt? = some (n : ℤ) → wp ω (randomFitted a_c (revTails a_c) sz n) (fun r t => ∃ v1 v2, r = stickWeights t.1.v ∧ t.1.v = v1 ++ v2 ∧
      SticksDrawn ω q.2 (min n N) (postPar s.1 q.1) v1 ∧ t.1.p = (nextP ω s.1 v1 q.1 (q.2 + min n N)).1 ∧
      SticksDrawn ω (nextP ω s.1 v1 q.1 (q.2 + min n N)).2 (n - min n N) (fun _ => priorPar s.1 t.1.p) v2 ∧ t.2 = (nextP ω s.1 v1 q.1 (q.2 + min n N)).2 + (n - min n N)) (fun _ _ => False)
      ({ s.1 with v := [], p := q.1 }, q.2) := by
    intro sz hsz
    have hpar : (({ s.1 with v := [], p := q.1 } : BIB K).params (if (n : ℤ) < (a_c.length : ℤ) then Py.sliceTo a_c n else a_c)
        (if (n : ℤ) < (a_c.length : ℤ) then Py.sliceTo (revTails a_c) n else revTails a_c)) = (List.range (min n N)).map (postPar s.1 q.1) := by
      have hfull : ({ s.1 with v := [], p := q.1 } : BIB K).params a_c (revTails a_c) = (List.range N).map (postPar s.1 q.1) := by
        unfold params
        rw [hA.zipWith_eq hane, hlen]
        rfl
      split
      · rename_i hlt
        unfold params
        rw [sliceTo_zipWith _ _ _ hlenb.symm]
        show Py.sliceTo (({ s.1 with v := [], p := q.1 } : BIB K).params a_c (revTails a_c)) n = _
        rw [hfull]
        unfold Py.sliceTo
        rw [if_pos (by omega), Int.toNat_natCast, ← List.map_take, List.take_range]
      · rename_i hlt
        rw [hfull]
        congr 2
        omega
    unfold randomFitted fittedSticks
    rw [wp_bind, wp_self, wp_bind]
    dsimp only
    rw [if_pos hx.2, hpar, wp_betaVec]
    have hpos := priorPar_pos h hx.2 hqm
    refine ⟨?_, fun _ => ?_⟩
    · rintro ⟨p, hp, hbad⟩
      obtain ⟨j, -, rfl⟩ := List.mem_map.1 hp
      have h1 : (0 : K) ≤ (nEq s.1.d j : K) := Nat.cast_nonneg _
      have h2 : (0 : K) ≤ (nGt s.1.d j : K) := Nat.cast_nonneg _
      unfold priorPar at hpos
      unfold postPar at hbad
      dsimp only at hpos hbad
      rcases hbad with hbad | hbad
      · linarith [hpos.1]
      · linarith [hpos.2]
    rw [wp_bind, wp_assign, List.length_map, List.length_range]
    set v1 := M.betaValues ω q.2 ((List.range (min n N)).map (postPar s.1 q.1)) with hv1
    have hdr : SticksDrawn ω q.2 (min n N) (postPar s.1 q.1) v1 := sticksDrawn_betaValues _ _ _ _
    have hNpos : 1 ≤ N := by rw [← hlen]; exact List.length_pos_iff.2 hane
    have hv1ne : v1 ≠ [] := by
      intro e
      have := hdr.length
      rw [e] at this
      simp at this
      omega
    have hsame : SamePar s.1 ({ s.1 with v := v1, p := q.1, w := stickWeights v1 } : BIB K) := ⟨rfl, rfl, rfl, rfl, rfl, rfl⟩
    obtain ⟨r, t, v2, h1, h2, h3, h4, h5, h6, h7⟩ := complete_next hω (s := (({ s.1 with v := v1, p := q.1, w := stickWeights v1 } : BIB K), q.2 + min n N))
      { h with p0 := hqm.1, p1 := hqm.2 } hx hd hv1ne rfl n hsz
    refine wp_mono (wp_eq_ok.2 h1) ?_ (fun _ _ h => h)
    rintro _ _ ⟨rfl, rfl⟩
    rw [nextP_samePar hsame] at h5 h6 h7
    dsimp only at h5 h6 h7
    rw [hdr.length] at h6 h7
    refine ⟨v1, v2, h2, h3, hdr, h5, ?_, h7⟩
    rw [h5]
    exact h6
  suffices hh : wp ω (random size) (fun r t => ∃ v1 v2, r = stickWeights t.1.v ∧ t.1.v = v1 ++ v2 ∧
      SticksDrawn ω q.2 (min n N) (postPar s.1 q.1) v1 ∧ t.1.p = (nextP ω s.1 v1 q.1 (q.2 + min n N)).1 ∧
      SticksDrawn ω (nextP ω s.1 v1 q.1 (q.2 + min n N)).2 (n - min n N) (fun _ => priorPar s.1 t.1.p) v2 ∧ t.2 = (nextP ω s.1 v1 q.1 (q.2 + min n N)).2 + (n - min n N)) (fun _ _ => False) s by
    obtain ⟨r, t, h1, v1, v2, h2⟩ := wp_total hh
    exact ⟨r, t, v1, v2, h1, h2⟩
  unfold random
  rw [wp_bind, wp_self, if_neg (fun h => hl h.2), wp_bind, wp_assign, if_neg hl, wp_bind, wp_whenM]
  refine ⟨fun _ => ?_, fun h => absurd hx.1 h⟩
  refine wp_mono (wp_eq_ok.2 (randomP_next (s := ({ s.1 with v := [] }, s.2)) { h with } hx hd)) ?_ (fun _ _ h => h)
  rintro _ _ ⟨rfl, rfl⟩
  have hsame : SamePar s.1 ({ s.1 with v := [] } : BIB K) := ⟨rfl, rfl, rfl, rfl, rfl, rfl⟩
  simp only [nextP_samePar hsame]
  rw [hq, hb, wp_bind, wp_lift]
  refine ⟨?_, nofun⟩
  rintro _ ⟨⟩
  rcases hn with ⟨rfl, -⟩ | ⟨rfl, hmax⟩
  · exact hmain (.int n) rfl
  · have e : n = a_c.length := by have := hA.length_eq hmax; omega
    rw [← e]
    exact hmain (.int n) rfl
end BIB
end Verif
