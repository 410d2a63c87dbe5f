import Verif.Props.C52
import Verif.Lemmas.NoErrorBB
import Mathlib.Analysis.SpecialFunctions.Log.Basic

/-!
# C91: the responsibilities are the softmax of the expected log-densities

Given the fitted weights and atoms, the evidence lower bound is largest when the responsibilities of each observation are proportional to `exp` of the scores
(expected log weight plus expected log-density) of the groups: `C91_softmax_best`, which also says that nothing else is as good.  The code adds a constant `eps` before it normalises.
Every responsibility that it stores is within `k * eps` of the optimal one (`C91_update_partial`, for every usable object, all data and all dimensions), but the
stored responsibilities are not optimal unless all scores are equal (`C91_refuted`).
-/

set_option linter.unusedSectionVars false

namespace Verif.Mix.VM
open Verif.Fl

/-- The part of the evidence lower bound that depends on the responsibilities `r` of one observation, for the scores `s`. -/
noncomputable def respBound {k : ℕ} (s r : Fin k → ℝ) : ℝ := ∑ j, r j * s j - ∑ j, r j * Real.log (r j)

/-- `exp` of a score, normalised. -/
noncomputable def softmax {k : ℕ} (s : Fin k → ℝ) (j : Fin k) : ℝ := Real.exp (s j) / ∑ i, Real.exp (s i)

theorem mul_log_le {r p : ℝ} (hr : 0 ≤ r) (hp : 0 < p) : r * (Real.log p - Real.log r) ≤ p - r ∧ (r * (Real.log p - Real.log r) = p - r → r = p) := by
  rcases hr.eq_or_lt with rfl | hr
  · refine ⟨by simp [hp.le], fun h => ?_⟩
    simp at h
    linarith
  · have e : Real.log p - Real.log r = Real.log (p / r) := (Real.log_div hp.ne' hr.ne').symm
    have hq : 0 < p / r := div_pos hp hr
    have e2 : p - r = r * (p / r - 1) := by field_simp
    rw [e, e2]
    refine ⟨mul_le_mul_of_nonneg_left (Real.log_le_sub_one_of_pos hq) hr.le, fun h => ?_⟩
    by_contra hne
    have h1 : p / r ≠ 1 := fun h => hne ((div_eq_one_iff_eq hr.ne').1 h).symm
    have := mul_lt_mul_of_pos_left (Real.log_lt_sub_one_of_pos hq h1) hr
    linarith

/-- Softmax is the only maximiser of the bound among probability vectors. -/
theorem C91_softmax_best {k : ℕ} (hk : 0 < k) (s r : Fin k → ℝ) (hr : ∀ j, 0 ≤ r j) (h1 : ∑ j, r j = 1) :
    respBound s r ≤ Real.log (∑ j, Real.exp (s j)) ∧ (respBound s r = Real.log (∑ j, Real.exp (s j)) ↔ r = softmax s) := by
  have : Nonempty (Fin k) := ⟨⟨0, hk⟩⟩
  have hZ : 0 < ∑ j, Real.exp (s j) := Finset.sum_pos (fun j _ => Real.exp_pos _) Finset.univ_nonempty
  have hp : ∀ j, 0 < softmax s j := fun j => div_pos (Real.exp_pos _) hZ
  have hs : ∑ j, softmax s j = 1 := by unfold softmax; simp_rw [div_eq_mul_inv]; rw [← Finset.sum_mul, mul_inv_cancel₀ hZ.ne']
  have hl : ∀ j, s j = Real.log (softmax s j) + Real.log (∑ i, Real.exp (s i)) := fun j => by
    rw [softmax, Real.log_div (Real.exp_pos _).ne' hZ.ne', Real.log_exp]; ring
  have e : respBound s r - Real.log (∑ j, Real.exp (s j)) = ∑ j, r j * (Real.log (softmax s j) - Real.log (r j)) := by
    unfold respBound
    have : ∑ j, r j * s j = ∑ j, r j * Real.log (softmax s j) + Real.log (∑ i, Real.exp (s i)) := by
      rw [Finset.sum_congr rfl fun j _ => by rw [hl j, mul_add], Finset.sum_add_distrib, ← Finset.sum_mul, h1, one_mul]
    rw [this]
    simp_rw [mul_sub]
    rw [Finset.sum_sub_distrib]
    ring
  have hz : ∑ j, (softmax s j - r j) = 0 := by rw [Finset.sum_sub_distrib, hs, h1, sub_self]
  have hle : ∀ j ∈ Finset.univ, r j * (Real.log (softmax s j) - Real.log (r j)) ≤ softmax s j - r j := fun j _ => (mul_log_le (hr j) (hp j)).1
  refine ⟨?_, ?_, ?_⟩
  · have := Finset.sum_le_sum hle
    linarith
  · intro h
    rw [h, sub_self] at e
    have h2 := (Finset.sum_eq_sum_iff_of_le hle).1 (by rw [← e, hz])
    funext j
    exact (mul_log_le (hr j) (hp j)).2 (h2 j (Finset.mem_univ j))
  · rintro rfl
    simp only [sub_self, mul_zero, Finset.sum_const_zero] at e
    linarith

/-- `exp` of a score that may be minus infinity. -/
noncomputable def botExp : WithBot ℝ → ℝ
  | none => 0
  | some x => Real.exp x

theorem botExp_nonneg (x : WithBot ℝ) : 0 ≤ botExp x := by
  induction x using WithBot.recBotCoe
  · exact le_rfl
  · exact (Real.exp_pos _).le

theorem bexp_eq {F : MathFun ℝ} (hexp : F.exp = Real.exp) (c : ℝ) (x : WithBot ℝ) : bexp F c x = botExp x / Real.exp c := by
  induction x using WithBot.recBotCoe
  · exact (zero_div _).symm
  · rw [bexp_coe, hexp, Real.exp_sub]; rfl

/-- The column computed from scores is close to the softmax of the scores. -/
theorem C91_column_partial {F : MathFun ℝ} (hF : Sane F) (hexp : F.exp = Real.exp) {eps : ℝ} (he : 0 < eps) {l : List (WithBot ℝ)} {x : ℝ} (h : (x : WithBot ℝ) ∈ l) :
    ∃ rs : List ℝ, normMax F eps (l.map ofBot) = rs.map fin ∧ rs.length = l.length ∧
      ∀ (j : ℕ) (r : ℝ) (s : WithBot ℝ), rs[j]? = some r → l[j]? = some s → |r - botExp s / (l.map botExp).sum| ≤ l.length * eps := by
  obtain ⟨c, hc, h1⟩ := normMax_eq hF he h
  refine ⟨_, h1, soft_length c l, ?_⟩
  intro j r s hr hs
  have hl : l ≠ [] := by rintro rfl; cases h
  unfold soft at hr
  rw [List.getElem?_map, hs, Option.map_some, Option.some.injEq] at hr
  have hec := Real.exp_pos c
  have hsum : (l.map (fun x => bexp F c x + eps)).sum = (l.map botExp).sum / Real.exp c + l.length * eps := by
    clear hc h1 h hs hr hl
    induction l with
    | nil => simp
    | cons y l ih =>
      rw [List.map_cons, List.sum_cons, ih, List.map_cons, List.sum_cons, bexp_eq hexp, List.length_cons]
      push_cast
      ring
  have hmem : (c : WithBot ℝ) ∈ l := by
    have key : ∀ (l : List (WithBot ℝ)) (a : WithBot ℝ), l.foldl Max.max a = a ∨ l.foldl Max.max a ∈ l := by
      intro l
      induction l with
      | nil => intro a; exact .inl rfl
      | cons y l ih =>
        intro a
        rw [List.foldl_cons]
        rcases ih (Max.max a y) with h | h
        · rw [h]
          rcases max_choice a y with h' | h'
          · exact .inl h'
          · rw [h']; exact .inr (List.mem_cons_self ..)
        · exact .inr (List.mem_cons_of_mem _ h)
    rcases key l ⊥ with h' | h'
    · rw [hc] at h'; exact absurd h' (by simp)
    · rw [hc] at h'; exact h'
  have hle : ∀ y ∈ l, botExp y ≤ (l.map botExp).sum := fun y hy =>
    List.single_le_sum (by intro z hz; obtain ⟨w, _, rfl⟩ := List.mem_map.1 hz; exact botExp_nonneg w) _ (List.mem_map_of_mem hy)
  have hZ : Real.exp c ≤ (l.map botExp).sum := hle _ hmem
  have hs' := hle s (List.mem_of_getElem? hs)
  have hs0 := botExp_nonneg s
  have hk : (1 : ℝ) ≤ l.length := by exact_mod_cast List.length_pos_iff.2 hl
  rw [hsum, bexp_eq hexp] at hr
  rw [← hr]
  set Z := (l.map botExp).sum with hZd
  set e := botExp s
  set n : ℝ := (l.length : ℝ)
  have hZ0 : 0 < Z := lt_of_lt_of_le hec hZ
  have e1 : (e / Real.exp c + eps) / (Z / Real.exp c + n * eps) - e / Z = eps * Real.exp c * (Z - n * e) / (Z * (Z + n * eps * Real.exp c)) := by
    have : 0 < Z + n * eps * Real.exp c := by positivity
    field_simp
    ring
  rw [e1, abs_div, abs_of_pos (show 0 < Z * (Z + n * eps * Real.exp c) by positivity), div_le_iff₀ (by positivity), abs_mul, abs_of_pos (by positivity : 0 < eps * Real.exp c)]
  have hb : |Z - n * e| ≤ n * Z := by
    rw [abs_le]
    constructor
    · nlinarith
    · nlinarith
  calc eps * Real.exp c * |Z - n * e| ≤ eps * Z * (n * Z) := by gcongr
    _ ≤ n * eps * (Z * (Z + n * eps * Real.exp c)) := by
      have : 0 ≤ n * eps * (Z * (n * eps * Real.exp c)) := by positivity
      nlinarith

variable {m : ℕ} {C : WeightClass ℝ} {V : VarClass C} {Atom : Type} {ω : Oracle ℝ} {W : World ℝ m Atom} {I : C.State → Prop} {F : MathFun ℝ}

/-- The scores of an observation, for a usable object. -/
theorem score_column (hF : Sane F) {k : ℕ} {s : VM V m Atom} (h : Ready I k s) :
    ∃ (f : ℕ → WithBot ℝ) (b : ℕ → VAtom ℝ m), (∀ j < k, V.meanLogW s.gm.wst.1 s.vst j = .ok (ofBot (f j)) ∧ s.varTheta[j]? = some (some (b j))) ∧ (∃ x : ℝ, f 0 = x) ∧
      ∃ lw, logWeights V s.gm.wst.1 s.vst (List.range s.varTheta.length) = .ok lw ∧
        ∀ x, scoreColumn F k lw s.varTheta x = ((List.range k).map (fun j => f j + ((numScore F x (b j) : ℝ) : WithBot ℝ))).map ofBot := by
  obtain ⟨f, hf, x0, hx0⟩ := h.weights
  have hb : ∀ j : ℕ, ∃ b : VAtom ℝ m, j < k → s.varTheta[j]? = some (some b) ∧ b.prec ≠ 0 := by
    intro j
    by_cases hj : j < k
    · have hj' : j < s.varTheta.length := by rw [h.theta]; exact hj
      obtain ⟨b, h1, h2⟩ := h.atoms _ (List.getElem_mem hj')
      exact ⟨b, fun _ => ⟨by rw [List.getElem?_eq_getElem hj', h1], h2⟩⟩
    · obtain ⟨b, _, _⟩ := h.atoms _ (List.getElem_mem (l := s.varTheta) (n := 0) (by rw [h.theta]; exact h.pos))
      exact ⟨b, fun h => absurd h hj⟩
  choose b hb using hb
  refine ⟨f, b, fun j hj => ⟨hf j hj, (hb j hj).1⟩, ⟨x0, hx0⟩, _, logWeights_ok (f := f) (fun j hj => hf j ?_), ?_⟩
  · rw [h.theta] at hj; exact List.mem_range.1 hj
  · intro x
    unfold scoreColumn
    rw [h.theta, Nat.sub_self, List.replicate_zero, List.append_nil]
    refine List.ext_getElem? fun j => ?_
    rw [List.getElem?_zipWith, List.getElem?_map, List.getElem?_map, List.getElem?_map, List.getElem?_map]
    rcases Nat.lt_or_ge j k with hj | hj
    · rw [List.getElem?_range hj, (hb j hj).1]
      simp only [Option.map_some]
      rw [atomScore_fin hF x (hb j hj).2, ← ofBot_coe, ofBot_add]
    · rw [List.getElem?_eq_none (by simpa using hj)]
      rfl

/-- **C91**: one update of the responsibilities of a usable object.  `f j` are the expected log weights, `numScore` the expected log-densities of the
observation.  Missing: the responsibilities are not exactly the optimal ones, see `C91_refuted`. -/
theorem C91_update_partial (hF : Sane F) (hexp : F.exp = Real.exp) (he : 0 < W.eps) {k : ℕ} {s : VM V m Atom × ℕ} (h : Ready I k s.1) :
    ∃ (f : ℕ → WithBot ℝ) (b : ℕ → VAtom ℝ m), (∀ j < k, V.meanLogW s.1.gm.wst.1 s.1.vst j = .ok (ofBot (f j)) ∧ s.1.varTheta[j]? = some (some (b j))) ∧
      ∃ t, updateVarD F W ω s = (.ok (), t) ∧ t.1.varD.length = s.1.gm.y.length ∧ ∀ (i : ℕ) (x : Fin m → ℝ), s.1.gm.y[i]? = some x →
        ∃ rs : List ℝ, t.1.varD[i]? = some (rs.map fin) ∧ rs.length = k ∧ ∀ (j : ℕ) (r : ℝ), rs[j]? = some r →
          |r - botExp (f j + ((numScore F x (b j) : ℝ) : WithBot ℝ)) / ((List.range k).map (fun j => botExp (f j + ((numScore F x (b j) : ℝ) : WithBot ℝ)))).sum| ≤ k * W.eps := by
  obtain ⟨f, b, h1, ⟨x0, hx0⟩, lw, h2, h3⟩ := score_column hF h
  refine ⟨f, b, h1, ?_⟩
  have hrun : ∃ t, updateVarD F W ω s = (.ok (), t) ∧ t.1.varD = s.1.gm.y.map (fun x => normMax F W.eps (scoreColumn F k lw s.1.varTheta x)) := by
    have hw : wp ω (updateVarD F W) (fun _ t => t.1.varD = s.1.gm.y.map (fun x => normMax F W.eps (scoreColumn F k lw s.1.varTheta x))) (fun _ _ => False) s := by
      unfold updateVarD
      rw [wp_bind, wp_self, h.varK]
      simp only []
      rw [if_neg (by omega), wp_bind, wp_lift]
      refine ⟨?_, fun e he => by rw [h2] at he; cases he⟩
      intro lw' hlw
      rw [h2] at hlw
      cases hlw
      rw [if_neg (by rw [h.theta]; simp), wp_assign]
      simp
    obtain ⟨_, t, h4, h5⟩ := wp_total hw
    exact ⟨t, h4, h5⟩
  obtain ⟨t, ht, hd⟩ := hrun
  refine ⟨t, ht, by rw [hd, List.length_map], ?_⟩
  intro i x hx
  have hmem : ((x0 + numScore F x (b 0) : ℝ) : WithBot ℝ) ∈ (List.range k).map (fun j => f j + ((numScore F x (b j) : ℝ) : WithBot ℝ)) := by
    refine List.mem_map.2 ⟨0, List.mem_range.2 h.pos, ?_⟩
    rw [hx0]; rfl
  obtain ⟨rs, r1, r2, r3⟩ := C91_column_partial hF hexp he hmem
  rw [List.length_map, List.length_range] at r2 r3
  refine ⟨rs, ?_, r2, ?_⟩
  · rw [hd, List.getElem?_map, hx, Option.map_some, h3, r1]
  · intro j r hr
    have hj : j < k := by rw [← r2]; exact (List.getElem?_eq_some_iff.1 hr).1
    have := r3 j r _ hr (by rw [List.getElem?_map, List.getElem?_range hj]; rfl)
    rw [List.map_map] at this
    exact this

/-- The stored responsibilities of an observation with finite scores are optimal only if all scores are equal. -/
theorem C91_refuted (hF : Sane F) (hexp : F.exp = Real.exp) {eps : ℝ} (he : 0 < eps) {k : ℕ} (s : Fin k → ℝ) {i j : Fin k} (hij : s i ≠ s j) :
    ∃ r : Fin k → ℝ, normMax F eps ((List.ofFn s).map fin) = (List.ofFn r).map fin ∧ (∀ j, 0 < r j) ∧ ∑ j, r j = 1 ∧
      respBound s r < respBound s (softmax s) := by
  have hk : 0 < k := lt_of_le_of_lt (Nat.zero_le _) i.2
  have : Nonempty (Fin k) := ⟨⟨0, hk⟩⟩
  let l : List (WithBot ℝ) := List.ofFn fun j => ((s j : ℝ) : WithBot ℝ)
  have hl : (List.ofFn s).map fin = l.map ofBot := by
    simp only [l, List.map_ofFn]
    rfl
  obtain ⟨c, _, h1⟩ := normMax_eq hF he (l := l) (x := s i) (List.mem_ofFn.2 ⟨i, rfl⟩)
  have hS : (l.map (fun x => bexp F c x + eps)).sum = ∑ j, (Real.exp (s j - c) + eps) := by
    simp only [l, List.map_ofFn, List.sum_ofFn, Function.comp_def, bexp_coe, hexp]
  have hpos : 0 < ∑ j, (Real.exp (s j - c) + eps) := Finset.sum_pos (fun j _ => add_pos (Real.exp_pos _) he) Finset.univ_nonempty
  refine ⟨fun j => (Real.exp (s j - c) + eps) / ∑ j, (Real.exp (s j - c) + eps), ?_, fun j => div_pos (add_pos (Real.exp_pos _) he) hpos, ?_, ?_⟩
  · rw [hl, h1]
    congr 1
    unfold soft
    rw [hS]
    simp only [l, List.map_ofFn, Function.comp_def, bexp_coe, hexp]
  · simp_rw [div_eq_mul_inv]
    rw [← Finset.sum_mul, mul_inv_cancel₀ hpos.ne']
  · have hr0 : ∀ j, 0 ≤ (Real.exp (s j - c) + eps) / ∑ j, (Real.exp (s j - c) + eps) := fun j => (div_pos (add_pos (Real.exp_pos _) he) hpos).le
    have hr1 : ∑ j, (Real.exp (s j - c) + eps) / ∑ j, (Real.exp (s j - c) + eps) = 1 := by
      simp_rw [div_eq_mul_inv]
      rw [← Finset.sum_mul, mul_inv_cancel₀ hpos.ne']
    have hZ : 0 < ∑ j, Real.exp (s j) := Finset.sum_pos (fun j _ => Real.exp_pos _) Finset.univ_nonempty
    have hs1 : ∑ j, softmax s j = 1 := by unfold softmax; simp_rw [div_eq_mul_inv]; rw [← Finset.sum_mul, mul_inv_cancel₀ hZ.ne']
    have b1 := C91_softmax_best hk s _ hr0 hr1
    have b2 := (C91_softmax_best hk s (softmax s) (fun j => (div_pos (Real.exp_pos _) hZ).le) hs1).2.2 rfl
    refine lt_of_le_of_ne (b2 ▸ b1.1) fun heq => ?_
    have hsm := b1.2.1 (heq.trans b2)
    have hec := Real.exp_pos c
    have q : ∀ j, (Real.exp (s j) / Real.exp c + eps) / ∑ j, (Real.exp (s j - c) + eps) = Real.exp (s j) / ∑ i, Real.exp (s i) := fun j => by
      have := congrFun hsm j
      rw [softmax] at this
      rw [← this, Real.exp_sub]
    have hSZ : ∑ j, (Real.exp (s j - c) + eps) = (∑ j, Real.exp (s j)) / Real.exp c + k * eps := by
      simp_rw [Finset.sum_add_distrib, Real.exp_sub, div_eq_mul_inv]
      rw [← Finset.sum_mul]
      simp
    have qi := q i
    have qj := q j
    rw [hSZ] at qi qj
    have hk' : (0 : ℝ) < k := by exact_mod_cast hk
    set Z := ∑ j, Real.exp (s j)
    have hD : 0 < Z / Real.exp c + k * eps := by positivity
    rw [div_eq_div_iff hD.ne' hZ.ne'] at qi qj
    have hne : Real.exp (s i) - Real.exp (s j) ≠ 0 := sub_ne_zero.2 fun h => hij (Real.exp_injective h)
    have e3 : (Real.exp (s i) - Real.exp (s j)) * (k * eps) = 0 := by
      have e4 : (Real.exp (s i) - Real.exp (s j)) / Real.exp c * Z = (Real.exp (s i) - Real.exp (s j)) * (Z / Real.exp c + k * eps) := by
        have : (Real.exp (s i) - Real.exp (s j)) / Real.exp c = Real.exp (s i) / Real.exp c - Real.exp (s j) / Real.exp c := sub_div _ _ _
        rw [this]
        linarith
      have e5 : (Real.exp (s i) - Real.exp (s j)) / Real.exp c * Z = (Real.exp (s i) - Real.exp (s j)) * (Z / Real.exp c) := by ring
      linarith
    exact (mul_ne_zero hne (by positivity)) e3

/-! ### The hypotheses are met -/

example : ∃ i j : Fin 2, (![0, 1] : Fin 2 → ℝ) i ≠ ![0, 1] j := ⟨0, 1, by norm_num⟩

example : ((0 : ℝ) : WithBot ℝ) ∈ [((0 : ℝ) : WithBot ℝ), ⊥] := List.mem_cons_self ..

/-- Usable objects: the C52 theorems provide them. -/
example {F : VWorld ℝ m} (hF : Sane F.toMathFun) (he : 0 < W.eps) (hV : Regular V I) (hm : 0 < m) {ys : List (Fin m → ℝ)} (hy : ys ≠ []) (nG : Option ℤ) (tol : Fl ℝ)
    {s u : VM V m Atom × ℕ} (hI : I s.1.gm.wst.1) (h : fitVariational F W (.rows ys) nG false tol .random ω s = (.ok (), u)) : ∃ k, Ready I k u.1 := by
  obtain ⟨k, _, _, h1, _⟩ := C52_random hF he hV hm hy nG tol hI h
  exact ⟨k, h1⟩
end Verif.Mix.VM
