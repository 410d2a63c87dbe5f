import Verif.Lemmas.Levels
import Verif.Props.C120

/-!
# C141: how much of the mass a saved state holds

The stored weights of a saved state are truncated and not renormalised (`C120_one_refuted`).  For the six stick-breaking classes with the inherited `tail`, all
histories of Gibbs fits and all uniform draws in their half-open intervals: the stored weights of every saved state sum to at least `(1 - eps) / 2`, `eps` being
the floating point margin added to the slice levels (`C141_half`); without the margin, a saved state with `k` groups stores more than `k / (k + 1)`
(`C141_groups`).  Hence the total mass of `gibbs_eap_density` is more than the mean of `k / (k + 1)` over the saved states, and more than one half (`C141_mass`);
it is below one for the Dirichlet process (`C120_one_refuted`) and the Pitman-Yor process (`C141_below`) unless a beta draw is exactly one.
-/

set_option linter.unusedSectionVars false

namespace Verif
namespace Mix
open GM Spec MeasureTheory
open scoped ENNReal
variable {K : Type} [Field K] [LinearOrder K] [IsStrictOrderedRing K]

/-- The stick-breaking classes with the inherited `tail`. -/
inductive SticksClass : WeightClass ℝ → Prop
  | dp : SticksClass DP.cls
  | py : SticksClass PY.cls
  | bib : SticksClass BIB.cls
  | bid (F : SpecFun ℝ) : SticksClass (BID.cls F)
  | bber : SticksClass BBer.cls
  | bbin : SticksClass BBin.cls

theorem SticksClass.growing {C : WeightClass ℝ} (h : SticksClass C) (ω : Oracle ℝ) : ∃ I, Growing C ω I := by
  cases h
  · exact ⟨_, DP.growing⟩
  · exact ⟨_, PY.growing⟩
  · exact ⟨_, BIB.growing⟩
  · exact ⟨_, BID.growing _⟩
  · exact ⟨_, BBer.growing⟩
  · exact ⟨_, BBin.growing⟩

/-- The number of groups of an assignment: of its distinct labels. -/
def groupsOf (d : List ℕ) : ℕ := d.toFinset.card

/-- If the labels have weights above `c`, the weights sum to more than the number of groups times `c`. -/
theorem groups_mul_lt {w : List K} {d : List ℕ} {c : K} (hw : ∀ x ∈ w, 0 ≤ x) (hne : d ≠ []) (h : ∀ j ∈ d, ∃ x, w[j]? = some x ∧ c < x) :
    (groupsOf d : K) * c < w.sum := by
  have hlt : ∀ j ∈ d, j < w.length := fun j hj => by obtain ⟨x, hx, _⟩ := h j hj; exact (List.getElem?_eq_some_iff.1 hx).1
  let G : Finset (Fin w.length) := Finset.univ.filter fun i => (i : ℕ) ∈ d
  have hG : G.map Fin.valEmbedding = d.toFinset := by
    ext j
    simp only [Finset.mem_map, List.mem_toFinset, G, Finset.mem_filter, Finset.mem_univ, true_and, Fin.valEmbedding_apply]
    exact ⟨fun ⟨i, hi, e⟩ => e ▸ hi, fun hj => ⟨⟨j, hlt j hj⟩, hj, rfl⟩⟩
  have hcard : groupsOf d = G.card := by unfold groupsOf; rw [← hG, Finset.card_map]
  have hGne : G.Nonempty := by
    obtain ⟨j, hj⟩ := List.exists_mem_of_ne_nil _ hne
    exact ⟨⟨j, hlt j hj⟩, by simpa [G] using hj⟩
  have h1 : ∑ i ∈ G, c < ∑ i ∈ G, w[i] := by
    refine Finset.sum_lt_sum_of_nonempty hGne fun i hi => ?_
    obtain ⟨x, hx, hc⟩ := h i (by simpa [G] using hi)
    rw [List.getElem?_eq_getElem i.2, Option.some.injEq] at hx
    show c < w[(i : ℕ)]
    rw [hx]; exact hc
  have h2 : ∑ i ∈ G, w[i] ≤ ∑ i : Fin w.length, w[i] :=
    Finset.sum_le_sum_of_subset_of_nonneg (Finset.subset_univ _) fun i _ _ => hw _ (List.getElem_mem _)
  have h3 : ∑ i : Fin w.length, w[i] = w.sum := Fin.sum_univ_getElem w
  rw [Finset.sum_const, nsmul_eq_mul, ← hcard] at h1
  linarith

variable {m : ℕ} {C : WeightClass ℝ} {ω : Oracle ℝ}

/-- Saved states: weights not negative, labels below them, one level per label, the levels as `_update_weights` left them, and labels above their level. -/
theorem saved_levels (hC : SticksClass C) {W : World ℝ m (Normal m)} (hu : DrawsBelow W) (hω : ω.Legal) {s : GM C m (Normal m) × ℕ} (hs : NewObject s.1)
    (ops : List (FitArgs ℝ m)) : ∀ p ∈ (run W ω s ops).1.saved, (∀ x ∈ p.w, 0 ≤ x) ∧ p.u.length = p.d.length ∧ Levels W.eps p.w p.u := by
  obtain ⟨J, hJ, hS, h0⟩ := hs.weights.keeps hω
  obtain ⟨I, hI⟩ := hs.weights.library.tidy ω
  obtain ⟨I', hG⟩ := hC.growing ω
  have hk := run_kept W (P := fun _ => True) (fun _ _ => trivial) hJ hS ops s (Kept.new hs.theta hs.saved hs.map h0)
  have hl := run_levels W (Q := fun p => p.u.length = p.d.length ∧ Levels W.eps p.w p.u) hI hG hu (fun t ht hL => by
    obtain ⟨as, ns, h⟩ := ht
    exact ⟨h.u_len.trans h.choice.1.symm, hL⟩) s hs.saved ops
  exact fun p hp => ⟨(hk.saved p hp).2.1, hl p hp⟩

/-- The stored weights sum to at least one half of what the margin leaves. -/
theorem C141_half (hC : SticksClass C) {W : World ℝ m (Normal m)} (hu : DrawsBelow W) (hω : ω.Legal) {s : GM C m (Normal m) × ℕ} (hs : NewObject s.1)
    (ops : List (FitArgs ℝ m)) : ∀ p ∈ (run W ω s ops).1.saved, (1 - W.eps) / 2 ≤ p.w.sum := by
  intro p hp
  obtain ⟨hw, _, hL⟩ := saved_levels hC hu hω hs ops p hp
  obtain ⟨x, hx⟩ := List.exists_mem_of_ne_nil _ hL.ne
  obtain ⟨y, hy, h1, _⟩ := hL.below x hx
  have h2 := h1 (hw y hy)
  have h3 := hL.cover x hx
  have h4 : y ≤ p.w.sum := List.single_le_sum hw y hy
  linarith

/-- A saved state with `k` groups stores more than `k / (k + 1)`. -/
theorem C141_groups (hC : SticksClass C) {W : World ℝ m (Normal m)} (hu : DrawsBelow W) (he : W.eps = 0) (hfin : ∀ x a, W.logpdf x a ≠ ⊥) (hω : ω.Legal)
    {s : GM C m (Normal m) × ℕ} (hs : NewObject s.1) (ops : List (FitArgs ℝ m)) :
    ∀ p ∈ (run W ω s ops).1.saved, 1 ≤ groupsOf p.d ∧ (groupsOf p.d : ℝ) / (groupsOf p.d + 1) < p.w.sum := by
  intro p hp
  obtain ⟨hw, hlen, hL⟩ := saved_levels hC hu hω hs ops p hp
  have hres := (C46_saved W hs.weights.library hfin s hs.saved ops p hp).2
  have hdne : p.d ≠ [] := fun h => hL.ne (List.length_eq_zero_iff.1 (by rw [hlen, h]; rfl))
  have hk : 1 ≤ groupsOf p.d := by
    obtain ⟨j, hj⟩ := List.exists_mem_of_ne_nil _ hdne
    exact Finset.card_pos.2 ⟨j, List.mem_toFinset.2 hj⟩
  refine ⟨hk, ?_⟩
  have key : (groupsOf p.d : ℝ) * (1 - p.w.sum) < p.w.sum := by
    refine groups_mul_lt hw hdne fun j hj => ?_
    obtain ⟨i, hi, rfl⟩ := List.mem_iff_getElem.1 hj
    have hiu : i < p.u.length := by rw [hlen]; exact hi
    obtain ⟨wj, h1, h2⟩ := hres i _ _ (List.getElem?_eq_getElem hi) (List.getElem?_eq_getElem hiu)
    refine ⟨wj, h1, ?_⟩
    have hum : p.u[i] ∈ p.u := List.getElem_mem hiu
    have h3 := hL.cover _ hum
    obtain ⟨y, hy, h4, h5⟩ := hL.below _ hum
    have h6 := hL.pos _ hum
    have h7 := h4 (hw y hy)
    rw [he, add_zero] at h5 h7
    have := h2 ⟨y, hy, h5 (by linarith)⟩
    linarith
  have hpos : (0 : ℝ) < groupsOf p.d + 1 := by positivity
  rw [div_lt_iff₀ hpos]
  linarith

theorem list_sum_lt {α : Type} {l : List α} {f g : α → ℝ} (hne : l ≠ []) (h : ∀ a ∈ l, f a < g a) : (l.map f).sum < (l.map g).sum :=
  List.sum_lt_sum_of_ne_nil hne _ _ h

/-- The total mass of `gibbs_eap_density`. -/
theorem C141_mass [NeZero m] (hC : SticksClass C) {W : World ℝ m (Normal m)} (hW : NormalWorld W) (hu : DrawsBelow W) (he : W.eps = 0)
    (hfin : ∀ x a, W.logpdf x a ≠ ⊥) (hω : ω.Legal) {s : GM C m (Normal m) × ℕ} (hs : NewObject s.1) (ops : List (FitArgs ℝ m))
    (hne : (run W ω s ops).1.saved ≠ []) :
    ENNReal.ofReal (((run W ω s ops).1.saved.map fun p => (groupsOf p.d : ℝ) / (groupsOf p.d + 1)).sum / ((run W ω s ops).1.saved.length : ℝ)) <
      meanLaw compLaw (run W ω s ops).1.saved Set.univ ∧ ENNReal.ofReal (1 / 2) < meanLaw compLaw (run W ω s ops).1.saved Set.univ := by
  have hg := C141_groups hC hu he hfin hω hs ops
  rw [(mean_full hW (run_proper hW hω hs ops).1).2.1]
  set l := (run W ω s ops).1.saved with hl
  have hlen : (0 : ℝ) < l.length := by exact_mod_cast List.length_pos_iff.2 hne
  have h1 := list_sum_lt hne fun p hp => (hg p hp).2
  have h0 : 0 < (l.map fun p => p.w.sum).sum := lt_of_le_of_lt (List.sum_nonneg (by
    intro x hx
    obtain ⟨p, _, rfl⟩ := List.mem_map.1 hx
    positivity)) h1
  have h2 := list_sum_lt (f := fun _ => (1 / 2 : ℝ)) hne fun p hp => lt_of_le_of_lt (by
    have h : (1 : ℝ) ≤ groupsOf p.d := by exact_mod_cast (hg p hp).1
    rw [div_le_div_iff₀ (by norm_num) (by linarith)]
    linarith) (hg p hp).2
  rw [List.map_const', List.sum_replicate, nsmul_eq_mul] at h2
  refine ⟨(ENNReal.ofReal_lt_ofReal_iff (by positivity)).2 (div_lt_div_of_pos_right h1 hlen), (ENNReal.ofReal_lt_ofReal_iff (by positivity)).2 ?_⟩
  rw [lt_div_iff₀ hlen]
  linarith

/-! ### The mass is below one -/

end Mix

namespace PY
variable {K : Type} [Field K] [LinearOrder K] [IsStrictOrderedRing K] {ω : Oracle K}

/-- Sticks and total below one. -/
def Short (s : PY K) : Prop := Open01 s.v ∧ s.w.sum < 1

theorem complete_short (hω : ω.Legal) (ho : ω.OpenBeta) (n : PySize) : KeepsR ω Short (complete n : M K (PY K) _) (fun _ => True) := by
  unfold complete
  refine KeepsR.bind (KeepsR.lift _) fun _ _ => ?_
  split
  · exact KeepsR.raise _
  · refine KeepsR.bind KeepsR.self fun s _ => KeepsR.bind (KeepsR.whenM fun _ => ?_) fun _ _ => ?_
    · refine KeepsR.bind (KeepsR.betaVec_open hω ho _) fun nv hnv => ?_
      refine KeepsR.bind (KeepsR.assign fun s hs => ⟨Open01.append hs.1 hnv, hs.2⟩) fun _ _ => ?_
      exact KeepsR.assign fun s hs => ⟨hs.1, hs.1.total⟩
    · exact KeepsR.bind KeepsR.self fun s _ => KeepsR.pure trivial

theorem random_short (hω : ω.Legal) (ho : ω.OpenBeta) (n : PySize) : KeepsR ω Short (random n : M K (PY K) _) (fun _ => True) := by
  unfold random
  refine KeepsR.bind KeepsR.self fun s _ => KeepsR.ite (fun _ => KeepsR.raise _) fun _ => KeepsR.ite (fun _ => ?_) fun _ => ?_
  · split
    · exact KeepsR.raise _
    · refine KeepsR.ite (fun _ => KeepsR.raise _) fun _ => KeepsR.bind (KeepsR.betaVec_open hω ho _) fun v hv => ?_
      exact KeepsR.bind (KeepsR.assign fun s hs => ⟨hv, hv.total⟩) fun _ _ => KeepsR.bind KeepsR.self fun s _ => KeepsR.pure trivial
  · refine KeepsR.bind (KeepsR.lift _) fun a _ => KeepsR.bind (R := Open01) ?_ fun v hv => ?_
    · unfold drawSticks
      split
      · exact KeepsR.raise _
      · exact KeepsR.betaVec_open hω ho _
      · exact KeepsR.ite (fun _ => KeepsR.betaVec_open hω ho _) fun _ => KeepsR.betaVec_open hω ho _
      · exact KeepsR.ite (fun _ => KeepsR.betaVec_open hω ho _) fun _ => KeepsR.betaVec_open hω ho _
    · refine KeepsR.bind (KeepsR.assign fun s hs => ⟨hv, hv.total⟩) fun _ _ => ?_
      refine KeepsR.bind (KeepsR.whenM fun _ => KeepsR.bind (complete_short hω ho _) fun _ _ => KeepsR.pure trivial) fun _ _ => ?_
      exact KeepsR.bind KeepsR.self fun s _ => KeepsR.pure trivial

theorem short_calls (hω : ω.Legal) (ho : ω.OpenBeta) : Mix.CallsKeep (cls : WeightClass K) ω Short := by
  have h : (core : WeightCore K).Stable ω Short :=
    { setD := fun _ _ h => h
      random := fun n => (random_short hω ho n).keeps
      complete := fun n => (KeepsR.bind (R' := fun _ => True) (complete_short hω ho n) fun _ _ => KeepsR.pure trivial).keeps }
  exact ⟨h, fun f x => tail_keeps h x f⟩
end PY

namespace Mix
open GM Spec MeasureTheory
open scoped ENNReal

/-- For the Pitman-Yor process, too, the mass is below one (the Dirichlet process: `C120_one_refuted`). -/
theorem C141_below [NeZero m] {W : World ℝ m (Normal m)} (hW : NormalWorld W) (hω : ω.Legal) (ho : ω.OpenBeta)
    {s : GM (PY.cls : WeightClass ℝ) m (Normal m) × ℕ} {pyd alpha : ℝ} (hs : NewObject s.1) (ha : PY.init pyd alpha = .ok s.1.wst.1) (ops : List (FitArgs ℝ m)) :
    (∀ p ∈ (run W ω s ops).1.saved, p.w.sum < 1) ∧ meanLaw compLaw (run W ω s ops).1.saved Set.univ < 1 := by
  have h0 : PY.Short s.1.wst.1 := by
    unfold PY.init at ha
    split at ha
    · rw [← Except.ok.inj ha]; exact ⟨Open01.nil, by simp⟩
    · cases ha
  have hlt := run_total (J := PY.Short) (Q := fun w => w.sum < 1) (PY.short_calls hω ho) (fun _ h => h.2) W hs h0 ops
  refine ⟨hlt, ?_⟩
  rw [(mean_full hW (run_proper hW hω hs ops).1).2.1, ← ENNReal.ofReal_one]
  refine (ENNReal.ofReal_lt_ofReal_iff one_pos).2 ?_
  by_cases hne : (run W ω s ops).1.saved = []
  · rw [hne]; simp
  · have hlen : (0 : ℝ) < (run W ω s ops).1.saved.length := by exact_mod_cast List.length_pos_iff.2 hne
    have h2 := list_sum_lt (g := fun _ => (1 : ℝ)) hne hlt
    rw [List.map_const', List.sum_replicate, nsmul_eq_mul] at h2
    rw [div_lt_one hlen]
    linarith

/-! ### The hypotheses are met -/

example : NewObject (m := 1) (blank PY.cls none 3 1 (⟨1 / 2, 1, [], [], []⟩ : PY ℝ)) := ⟨.py (1 / 2) 1 _ (by unfold PY.init; norm_num; rfl), rfl, rfl, rfl⟩

example : DrawsBelow (stdWorld 1) := fun p lo hi h => ⟨by simp only [stdWorld]; linarith, fun h => by simp only [stdWorld]; linarith⟩
example : ∀ x a, (stdWorld 1).logpdf x a ≠ ⊥ := fun _ _ => WithBot.coe_ne_bot
example : SticksClass DP.cls ∧ NewObject (m := 1) (blank DP.cls none 3 1 (DP.init 1 : DP ℝ)) := ⟨.dp, .dp 1, rfl, rfl, rfl⟩

/-- A run without the margin whose saved states have two groups: they store `13 / 15`, more than `2 / 3`. -/
example : let t := run { world with eps := 0 } (meanO : Oracle ℚ) (dpObj 1 4 1 1, 0) [⟨rows1 [1, 2, 5], .int 2, false, .kmeans⟩]
    t.1.gibbsFitted = true ∧ t.1.saved.map (fun p => (groupsOf p.d, p.w.sum)) = [(2, 13 / 15), (2, 13 / 15), (2, 13 / 15)] := by
  decide +kernel

/-- One half cannot be raised much: beta draws of `51 / 100` and uniform draws near the upper end leave states that store `51 / 100`. -/
example : let t := run { world with eps := 0, unif := fun _ lo hi => (lo + 99 * hi) / 100 } { (meanO : Oracle ℚ) with beta := fun _ _ _ => 51 / 100 } (dpObj 1 4 1 1, 0) [⟨rows1 [1, 2], .int 1, false, .kmeans⟩]
    t.1.gibbsFitted = true ∧ t.1.saved.map (fun p => (groupsOf p.d, p.w.sum)) = [(1, 51 / 100), (1, 51 / 100), (1, 51 / 100)] := by
  decide +kernel
end Mix
end Verif
