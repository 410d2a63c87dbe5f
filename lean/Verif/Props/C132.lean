import Verif.Lemmas.StreamCons
import Verif.Props.C65

/-!
# C132: `rejection_sample` draws from the density it is given

The draws are those of a stream of independent uniform numbers on `[0, 1)` (`streamLaw`), `rng.uniform(a, b)` being `a + (b - a) * rng.random()`.

Without `size` the claim holds for every measurable `f` with `0 ≤ f ≤ max_y` on `[a, b]` and a positive integral: the loop ends with probability one, and the result lies in a set `B` with
probability `∫_B f / ∫ f`.  With `size` it is false: for a step function the probability of the middle step is `7/19` instead of `1/3`.
-/

set_option linter.unusedSectionVars false

namespace Verif.Mix
open MeasureTheory Set
open scoped ENNReal Classical

/-- `rng.uniform(lo, hi)` at position `p` of the stream. -/
def uni (u : ℕ → ℝ) (p : ℕ) (lo hi : ℝ) : ℝ := lo + (hi - lo) * u p

/-- `rejection_sample(f, max_y, a, b)` started at position `pos` returns a point of `B`. -/
def DrawsIn (f : ℝ → ℝ) (maxY a b : ℝ) (pos : ℕ) (B : Set ℝ) (u : ℕ → ℝ) : Prop :=
  ∃ fuel x pos', rejectionSample (uni u) f maxY a b fuel pos = .ok (x, pos') ∧ x ∈ B

variable {f : ℝ → ℝ} {maxY a b : ℝ} {B : Set ℝ}

theorem drawsIn_iff {pos : ℕ} {u : ℕ → ℝ} : DrawsIn f maxY a b pos B u ↔
    ∃ r, Under (uni u) f maxY a b pos r ∧ (∀ q < r, ¬ Under (uni u) f maxY a b pos q) ∧ uni u (pos + 2 * r) a b ∈ B := by
  constructor
  · rintro ⟨fuel, x, pos', h, hx⟩
    obtain ⟨r, h1, h2, h3, -⟩ := C65_scalar h
    exact ⟨r, h1, h2, h3 ▸ hx⟩
  · rintro ⟨r, h1, h2, h3⟩
    obtain ⟨x, pos', h⟩ := C65_scalar_returns h1
    obtain ⟨r', h1', h2', h3', -⟩ := C65_scalar h
    have : r' = r := by
      rcases lt_trichotomy r' r with hl | he | hl
      · exact absurd h1' (h2 _ hl)
      · exact he
      · exact absurd h1 (h2' _ hl)
    exact ⟨r + 1, x, pos', h, by rw [h3', this]; exact h3⟩

theorem measurable_uni (p : ℕ) (lo hi : ℝ) : Measurable fun u : ℕ → ℝ => uni u p lo hi :=
  measurable_const.add (measurable_const.mul (measurable_pi_apply p))

theorem measurableSet_drawsIn (hf : Measurable f) (hB : MeasurableSet B) (pos : ℕ) : MeasurableSet {u | DrawsIn f maxY a b pos B u} := by
  have hU : ∀ r, MeasurableSet {u : ℕ → ℝ | Under (uni u) f maxY a b pos r} := fun r => measurableSet_le (measurable_uni _ _ _) (hf.comp (measurable_uni _ _ _))
  simp only [drawsIn_iff]
  have : {u : ℕ → ℝ | ∃ r, Under (uni u) f maxY a b pos r ∧ (∀ q < r, ¬ Under (uni u) f maxY a b pos q) ∧ uni u (pos + 2 * r) a b ∈ B} =
      ⋃ r, ({u | Under (uni u) f maxY a b pos r} ∩ ((⋂ q, ⋂ (_ : q < r), {u | Under (uni u) f maxY a b pos q}ᶜ) ∩ (fun u => uni u (pos + 2 * r) a b) ⁻¹' B)) := by
    ext u; simp
  rw [this]
  exact MeasurableSet.iUnion fun r => (hU r).inter ((MeasurableSet.iInter fun q => MeasurableSet.iInter fun _ => (hU q).compl).inter ((measurable_uni _ _ _) hB))

/-- The first pair of draws decides, or the rest of the stream does. -/
theorem drawsIn_scons (x y : ℝ) (u : ℕ → ℝ) : DrawsIn f maxY a b 0 B (scons x (scons y u)) ↔
    if maxY * y ≤ f (a + (b - a) * x) then a + (b - a) * x ∈ B else DrawsIn f maxY a b 0 B u := by
  have h0 : Under (uni (scons x (scons y u))) f maxY a b 0 0 ↔ maxY * y ≤ f (a + (b - a) * x) := by
    simp [Under, uni, scons]
  have hs : ∀ r, Under (uni (scons x (scons y u))) f maxY a b 0 (r + 1) ↔ Under (uni u) f maxY a b 0 r := fun r => by
    have e1 : 0 + 2 * (r + 1) = (2 * r + 1) + 1 := by ring
    simp only [Under, e1, uni, scons, zero_add]
  rw [drawsIn_iff, drawsIn_iff]
  split
  · rename_i h
    constructor
    · rintro ⟨r, h1, h2, h3⟩
      cases r with
      | zero => simpa [uni, scons] using h3
      | succ r => exact absurd (h0.2 h) (h2 0 (by omega))
    · intro hB
      exact ⟨0, h0.2 h, by simp, by simpa [uni, scons] using hB⟩
  · rename_i h
    constructor
    · rintro ⟨r, h1, h2, h3⟩
      cases r with
      | zero => exact absurd (h0.1 h1) h
      | succ r =>
        refine ⟨r, (hs r).1 h1, fun q hq h' => h2 (q + 1) (by omega) ((hs q).2 h'), ?_⟩
        have e1 : 0 + 2 * (r + 1) = (2 * r + 1) + 1 := by ring
        rw [e1] at h3
        simpa [uni, scons] using h3
    · rintro ⟨r, h1, h2, h3⟩
      refine ⟨r + 1, (hs r).2 h1, fun q hq => ?_, ?_⟩
      · cases q with
        | zero => rwa [h0]
        | succ q => rw [hs]; exact h2 q (by omega)
      · have e1 : 0 + 2 * (r + 1) = (2 * r + 1) + 1 := by ring
        rw [e1]
        simpa [uni, scons] using h3

/-- The pair `(x, y)` of uniform numbers is accepted, with its point in `C`. -/
noncomputable def accept (f : ℝ → ℝ) (maxY a b : ℝ) (C : Set ℝ) (x y : ℝ) : ℝ≥0∞ :=
  if maxY * y ≤ f (a + (b - a) * x) ∧ a + (b - a) * x ∈ C then 1 else 0

/-- The pair `(x, y)` of uniform numbers is rejected. -/
noncomputable def reject (f : ℝ → ℝ) (maxY a b : ℝ) (x y : ℝ) : ℝ≥0∞ := if maxY * y ≤ f (a + (b - a) * x) then 0 else 1

theorem accept_add_reject (x y : ℝ) : accept f maxY a b univ x y + reject f maxY a b x y = 1 := by
  by_cases h : maxY * y ≤ f (a + (b - a) * x) <;> simp [accept, reject, h]

/-- The probability that the first pair is accepted with its point in `B`. -/
noncomputable def hit (f : ℝ → ℝ) (maxY a b : ℝ) (B : Set ℝ) : ℝ≥0∞ :=
  ∫⁻ x, ∫⁻ y, accept f maxY a b B x y ∂unifLaw ∂unifLaw

/-- The area under the curve. -/
theorem hit_eq (hf : Measurable f) (hY : 0 < maxY) (hab : a < b) (h01 : ∀ x ∈ Icc a b, 0 ≤ f x ∧ f x ≤ maxY) (hB : MeasurableSet B) :
    ENNReal.ofReal (b - a) * (ENNReal.ofReal maxY * hit f maxY a b B) = ∫⁻ t in Icc a b ∩ B, ENNReal.ofReal (f t) := by
  have h1 : ENNReal.ofReal maxY * hit f maxY a b B = ∫⁻ x, B.indicator (fun t => ENNReal.ofReal (f t)) (a + (b - a) * x) ∂unifLaw := by
    rw [hit, ← lintegral_const_mul' _ _ ENNReal.ofReal_ne_top]
    refine lintegral_congr_ae ?_
    filter_upwards [unifLaw_Ioo] with x hx
    set t := a + (b - a) * x with ht
    have htm : t ∈ Icc a b := ⟨by nlinarith [hx.1, hx.2], by nlinarith [hx.1, hx.2]⟩
    by_cases htB : t ∈ B
    · rw [indicator_of_mem htB]
      have e : (fun y : ℝ => accept f maxY a b B x y) = (Iic (f t / maxY)).indicator 1 := by
        funext y
        unfold accept
        rw [← ht]
        by_cases hy : maxY * y ≤ f t
        · rw [if_pos ⟨hy, htB⟩, indicator_of_mem (by rw [mem_Iic, le_div_iff₀ hY]; linarith)]; rfl
        · rw [if_neg fun h => hy h.1, indicator_of_notMem (by rw [mem_Iic, le_div_iff₀ hY]; intro h; exact hy (by linarith))]
      rw [e, lintegral_indicator_one measurableSet_Iic, unifLaw_Iic (div_nonneg (h01 t htm).1 hY.le) ((div_le_one hY).2 (h01 t htm).2), ← ENNReal.ofReal_mul hY.le, mul_div_cancel₀ _ hY.ne']
    · rw [indicator_of_notMem htB]
      simp [accept, ← ht, htB]
  rw [h1, lintegral_unif_affine hab _ ((hf.ennreal_ofReal).indicator hB), setLIntegral_indicator hB, inter_comm]
  exact setLIntegral_congr (Ico_ae_eq_Icc.inter (Filter.EventuallyEq.refl _ B))

theorem draws_eq (hf : Measurable f) (hB : MeasurableSet B) :
    hit f maxY a b univ * streamLaw {u | DrawsIn f maxY a b 0 B u} = hit f maxY a b B := by
  set m := streamLaw {u | DrawsIn f maxY a b 0 B u} with hm
  set R : ℝ≥0∞ := ∫⁻ x, ∫⁻ y, reject f maxY a b x y ∂unifLaw ∂unifLaw with hR
  have hmeas : ∀ C : Set ℝ, MeasurableSet C → Measurable fun z : ℝ × ℝ => accept f maxY a b C z.1 z.2 := fun C hC =>
    Measurable.ite ((measurableSet_le (by fun_prop) (hf.comp (by fun_prop))).inter ((by fun_prop : Measurable fun z : ℝ × ℝ => a + (b - a) * z.1) hC)) measurable_const measurable_const
  have hmR : Measurable fun z : ℝ × ℝ => reject f maxY a b z.1 z.2 :=
    Measurable.ite (measurableSet_le (by fun_prop) (hf.comp (by fun_prop))) measurable_const measurable_const
  have hmeas1 : ∀ C : Set ℝ, MeasurableSet C → ∀ x : ℝ, Measurable fun y : ℝ => accept f maxY a b C x y := fun C hC x =>
    (hmeas C hC).comp (measurable_const.prodMk measurable_id)
  have hmR1 : ∀ x : ℝ, Measurable fun y : ℝ => reject f maxY a b x y := fun x => hmR.comp (measurable_const.prodMk measurable_id)
  have hone : hit f maxY a b univ + R = 1 := by
    rw [hit, hR, ← lintegral_add_left (hmeas univ MeasurableSet.univ).lintegral_prod_right']
    dsimp only
    have : ∀ x, ∫⁻ y, accept f maxY a b univ x y ∂unifLaw + ∫⁻ y, reject f maxY a b x y ∂unifLaw = 1 := fun x => by
      rw [← lintegral_add_left (hmeas1 univ MeasurableSet.univ x)]
      simp [accept_add_reject]
    simp [this]
  have hrec : m = hit f maxY a b B + R * m := by
    refine hm.trans ((stream_two (measurableSet_drawsIn hf hB 0)).trans ?_)
    rw [hit, hR, ← lintegral_mul_const _ hmR.lintegral_prod_right', ← lintegral_add_left (hmeas B hB).lintegral_prod_right']
    refine lintegral_congr fun x => ?_
    dsimp only
    rw [← lintegral_mul_const _ (hmR1 x), ← lintegral_add_left (hmeas1 B hB x)]
    refine lintegral_congr fun y => ?_
    simp only [Set.mem_ofPred_eq, drawsIn_scons]
    by_cases h : maxY * y ≤ f (a + (b - a) * x)
    · by_cases hx : a + (b - a) * x ∈ B <;> simp [accept, reject, h, hx]
    · simp [accept, reject, h, hm]
  have hfin : R * m ≠ ∞ := by
    refine ENNReal.mul_ne_top ?_ (measure_ne_top _ _)
    exact ne_top_of_le_ne_top ENNReal.one_ne_top (hone ▸ le_add_self)
  have : hit f maxY a b univ * m + R * m = hit f maxY a b B + R * m := by
    rw [← add_mul, hone, one_mul]
    exact hrec
  exact (ENNReal.add_left_inj hfin).1 this

/-- **Without `size`**: the result has the density `f / ∫ f`, whatever the position of the generator. -/
theorem C132_scalar (hf : Measurable f) (hY : 0 < maxY) (hab : a < b) (h01 : ∀ x ∈ Icc a b, 0 ≤ f x ∧ f x ≤ maxY) (hpos : ∫⁻ x in Icc a b, ENNReal.ofReal (f x) ≠ 0)
    (hB : MeasurableSet B) (pos : ℕ) : streamLaw {u | ∃ fuel x pos', rejectionSample (uni u) f maxY a b fuel pos = .ok (x, pos') ∧ x ∈ B} =
      (∫⁻ x in Icc a b ∩ B, ENNReal.ofReal (f x)) / ∫⁻ x in Icc a b, ENNReal.ofReal (f x) := by
  have hw : ENNReal.ofReal (b - a) ≠ 0 := by simpa using hab
  have hy : ENNReal.ofReal maxY ≠ 0 := by simpa using hY
  have hU := hit_eq hf hY hab h01 MeasurableSet.univ
  rw [inter_univ] at hU
  have hu : hit f maxY a b univ ≠ 0 := fun h => hpos (by rw [← hU, h]; simp)
  have hrec := draws_eq (maxY := maxY) (a := a) (b := b) hf hB
  have hsh : streamLaw {u | DrawsIn f maxY a b pos B u} = streamLaw {u | DrawsIn f maxY a b 0 B u} := by
    conv_rhs => rw [← stream_shift pos]
    rw [Measure.map_apply (measurable_pi_lambda _ fun i => measurable_pi_apply _) (measurableSet_drawsIn hf hB 0)]
    congr 1
    ext u
    simp only [Set.mem_ofPred_eq, Set.mem_preimage, drawsIn_iff]
    have hU : ∀ r, Under (uni fun i => u (pos + i)) f maxY a b 0 r ↔ Under (uni u) f maxY a b pos r := fun r => by
      simp only [Under, uni, zero_add, add_assoc]
    simp only [hU, uni, zero_add]
  show streamLaw {u | DrawsIn f maxY a b pos B u} = _
  rw [hsh, ← hU, ← hit_eq hf hY hab h01 hB, ← hrec]
  have hut : hit f maxY a b univ ≠ ∞ := by
    intro h
    have h1 : hit f maxY a b univ ≤ 1 := by
      calc hit f maxY a b univ ≤ ∫⁻ x, ∫⁻ y, 1 ∂unifLaw ∂unifLaw := lintegral_mono fun x => lintegral_mono fun y => by unfold accept; split <;> simp
        _ = 1 := by simp
    rw [h] at h1
    exact absurd h1 (by simp)
  rw [← mul_assoc, ← mul_assoc, ← mul_assoc, mul_comm, ENNReal.mul_div_cancel_right]
  · exact mul_ne_zero (mul_ne_zero hw hy) hu
  · exact ENNReal.mul_ne_top (ENNReal.mul_ne_top ENNReal.ofReal_ne_top ENNReal.ofReal_ne_top) hut

/-- Without `size` the loop ends with probability one. -/
theorem C132_scalar_ends (hf : Measurable f) (hY : 0 < maxY) (hab : a < b) (h01 : ∀ x ∈ Icc a b, 0 ≤ f x ∧ f x ≤ maxY) (hpos : ∫⁻ x in Icc a b, ENNReal.ofReal (f x) ≠ 0) (pos : ℕ) :
    ∀ᵐ u ∂streamLaw, ∃ fuel x pos', rejectionSample (uni u) f maxY a b fuel pos = .ok (x, pos') := by
  have h := C132_scalar hf hY hab h01 hpos MeasurableSet.univ pos
  have hfin : ∫⁻ x in Icc a b, ENNReal.ofReal (f x) ≠ ∞ := by
    refine ne_top_of_le_ne_top (b := ∫⁻ _ in Icc a b, ENNReal.ofReal maxY) ?_ (setLIntegral_mono measurable_const fun x hx => ENNReal.ofReal_le_ofReal (h01 x hx).2)
    simpa using ENNReal.mul_ne_top ENNReal.ofReal_ne_top ENNReal.ofReal_ne_top
  rw [inter_univ, ENNReal.div_self hpos hfin] at h
  simp only [mem_univ, and_true] at h
  have hm : MeasurableSet {u | ∃ fuel x pos', rejectionSample (uni u) f maxY a b fuel pos = .ok (x, pos')} := by
    have := measurableSet_drawsIn (maxY := maxY) (a := a) (b := b) hf MeasurableSet.univ pos
    simpa only [DrawsIn, mem_univ, and_true] using this
  exact (mem_ae_iff_prob_eq_one hm).2 h

/-- The hypotheses of `C132_scalar` have an instance: the density `2 x` on `[0, 1]` with bound `2`. -/
example (pos : ℕ) : streamLaw {u | ∃ fuel x pos', rejectionSample (uni u) (fun x => 2 * x) 2 0 1 fuel pos = .ok (x, pos') ∧ x ∈ Iic (1 / 2 : ℝ)} =
    (∫⁻ x in Icc (0 : ℝ) 1 ∩ Iic (1 / 2), ENNReal.ofReal (2 * x)) / ∫⁻ x in Icc (0 : ℝ) 1, ENNReal.ofReal (2 * x) := by
  refine C132_scalar (by fun_prop) (by norm_num) (by norm_num) (fun x hx => ⟨by linarith [hx.1], by linarith [hx.2]⟩) (fun h => ?_) measurableSet_Iic pos
  rw [setLIntegral_eq_zero_iff measurableSet_Icc (by fun_prop)] at h
  have h2 : ∀ᵐ x : ℝ, x ∉ Ioo (0 : ℝ) 1 := by
    filter_upwards [h] with x hx hm
    have := hx ⟨hm.1.le, hm.2.le⟩
    rw [ENNReal.ofReal_eq_zero] at this
    linarith [hm.1]
  have h3 : volume (Ioo (0 : ℝ) 1) = 0 := measure_mono_null (fun x hx => not_not.2 hx) (ae_iff.1 h2)
  simp at h3

/-! ### With `size` -/

/-- `rejectionLoop` on a single point, the position of the generator moved. -/
theorem refill_moved {d d' : ℕ → ℝ} {k : ℕ} (h : ∀ p, d' p = d (p + k)) : ∀ (ms : List Bool) (xs : List ℝ) (pos : ℕ),
    (refill d' pos ms xs).1 = (refill d (pos + k) ms xs).1 ∧ (refill d' pos ms xs).2 + k = (refill d (pos + k) ms xs).2
  | true :: ms, _ :: xs, pos => by
    have := refill_moved h ms xs (pos + 1)
    rw [show pos + 1 + k = pos + k + 1 by ring] at this
    simp [refill, h, this]
  | false :: ms, x :: xs, pos => by
    have := refill_moved h ms xs pos
    simp [refill, this]
  | [], _, pos => by simp [refill]
  | true :: _, [], pos => by simp [refill]
  | false :: _, [], pos => by simp [refill]

theorem rejectionLoop_moved {u u' : ℕ → ℝ} {k : ℕ} (h : ∀ p, u' p = u (p + k)) (f : ℝ → ℝ) (maxY a b : ℝ) : ∀ (fuel pos : ℕ) (x y : List ℝ),
    rejectionLoop (uni u') f maxY a b fuel pos x y = rejectionLoop (uni u) f maxY a b fuel (pos + k) x y
  | 0, _, _, _ => rfl
  | fuel + 1, pos, x, y => by
    have hd : ∀ lo hi p, uni u' p lo hi = uni u (p + k) lo hi := fun lo hi p => by simp [uni, h]
    have h1 := refill_moved (d' := fun p => uni u' p a b) (d := fun p => uni u p a b) (hd a b) (above f x y) x pos
    rw [rejectionLoop, rejectionLoop]
    simp only [h1.1]
    have h2 := refill_moved (d' := fun p => uni u' p 0 maxY) (d := fun p => uni u p 0 maxY) (hd 0 maxY) (above f (refill (fun p => uni u p a b) (pos + k) (above f x y) x).1 y) y
      (refill (fun p => uni u' p a b) pos (above f x y) x).2
    rw [h1.2] at h2
    rw [h2.1, rejectionLoop_moved h f maxY a b fuel, h2.2]

/-- The loop, entered at position `pos` with the point `x` and the height `y`, returns a point of `B` within `fuel` rounds. -/
def LoopIn (f : ℝ → ℝ) (B : Set ℝ) (fuel pos : ℕ) (x y : ℝ) (u : ℕ → ℝ) : Prop :=
  ∃ t ys, rejectionLoop (uni u) f 1 0 1 fuel pos [x] [y] = .ok ([t], ys) ∧ t ∈ B

theorem loopIn_succ {fuel pos : ℕ} {x y : ℝ} {u : ℕ → ℝ} : LoopIn f B (fuel + 1) pos x y u ↔
    if f x < y then (if f (u pos) < y then LoopIn f B fuel (pos + 2) (u pos) (u (pos + 1)) u else LoopIn f B fuel (pos + 1) (u pos) y u) else x ∈ B := by
  unfold LoopIn
  rw [rejectionLoop]
  have hu : ∀ p, uni u p 0 1 = u p := fun p => by simp [uni]
  by_cases h : f x < y
  · by_cases h' : f (u pos) < y
    · simp [above, h, h', refill, hu]
    · simp [above, h, h', refill, hu]
  · simp [above, h]

/-- The loop returns a point of `B`. -/
def Loops (f : ℝ → ℝ) (B : Set ℝ) (pos : ℕ) (x y : ℝ) (u : ℕ → ℝ) : Prop := ∃ fuel, LoopIn f B fuel pos x y u

theorem loops_iff {pos : ℕ} {x y : ℝ} {u : ℕ → ℝ} : Loops f B pos x y u ↔
    if f x < y then (if f (u pos) < y then Loops f B (pos + 2) (u pos) (u (pos + 1)) u else u pos ∈ B) else x ∈ B := by
  have h0 : ∀ pos x y, ¬ LoopIn f B 0 pos x y u := fun pos x y h => by
    obtain ⟨t, ys, h, -⟩ := h
    simp [rejectionLoop] at h
  have key : ∀ pos x y, Loops f B pos x y u ↔ ∃ fuel, LoopIn f B (fuel + 1) pos x y u := fun pos x y => by
    constructor
    · rintro ⟨fuel, h⟩
      cases fuel with
      | zero => exact absurd h (h0 _ _ _)
      | succ fuel => exact ⟨fuel, h⟩
    · rintro ⟨fuel, h⟩
      exact ⟨_, h⟩
  rw [key]
  by_cases h : f x < y
  · by_cases h' : f (u pos) < y
    · simp only [loopIn_succ, h, h', if_true]
      exact Iff.rfl
    · have : (∃ fuel, LoopIn f B fuel (pos + 1) (u pos) y u) ↔ u pos ∈ B := by
        have := key (pos + 1) (u pos) y
        simp only [loopIn_succ, h', if_false] at this
        simpa [Loops] using this
      simp only [loopIn_succ, h, h', if_true, if_false]
      exact this
  · simp [loopIn_succ, h]

theorem setIte {α : Type*} [MeasurableSpace α] {P Q R : α → Prop} (hP : MeasurableSet {z | P z}) (hQ : MeasurableSet {z | Q z}) (hR : MeasurableSet {z | R z}) :
    MeasurableSet {z | if P z then Q z else R z} := by
  have : {z | if P z then Q z else R z} = ({z | P z} ∩ {z | Q z}) ∪ ({z | P z}ᶜ ∩ {z | R z}) := by
    ext z
    by_cases h : P z <;> simp [h]
  rw [this]
  exact (hP.inter hQ).union (hP.compl.inter hR)

theorem measurableSet_loopIn (hf : Measurable f) (hB : MeasurableSet B) : ∀ fuel pos, MeasurableSet {z : ℝ × ℝ × (ℕ → ℝ) | LoopIn f B fuel pos z.1 z.2.1 z.2.2}
  | 0, pos => by
    have : {z : ℝ × ℝ × (ℕ → ℝ) | LoopIn f B 0 pos z.1 z.2.1 z.2.2} = ∅ := by
      ext z
      simp [LoopIn, rejectionLoop]
    rw [this]
    exact MeasurableSet.empty
  | fuel + 1, pos => by
    have ha := measurableSet_loopIn hf hB fuel (pos + 2)
    have hb := measurableSet_loopIn hf hB fuel (pos + 1)
    have hu : ∀ p, Measurable fun z : ℝ × ℝ × (ℕ → ℝ) => z.2.2 p := fun p => (measurable_pi_apply p).comp (measurable_snd.comp measurable_snd)
    have hy : Measurable fun z : ℝ × ℝ × (ℕ → ℝ) => z.2.1 := measurable_fst.comp measurable_snd
    have hv : Measurable fun z : ℝ × ℝ × (ℕ → ℝ) => z.2.2 := measurable_snd.comp measurable_snd
    have h1 : MeasurableSet {z : ℝ × ℝ × (ℕ → ℝ) | f z.1 < z.2.1} := measurableSet_lt (hf.comp measurable_fst) hy
    have h2 : MeasurableSet {z : ℝ × ℝ × (ℕ → ℝ) | f (z.2.2 pos) < z.2.1} := measurableSet_lt (hf.comp (hu pos)) hy
    simp only [loopIn_succ]
    exact setIte h1 (setIte h2 (((hu pos).prodMk ((hu (pos + 1)).prodMk hv)) ha) (((hu pos).prodMk (hy.prodMk hv)) hb)) (measurable_fst hB)

theorem measurableSet_loops (hf : Measurable f) (hB : MeasurableSet B) (pos : ℕ) : MeasurableSet {z : ℝ × ℝ × (ℕ → ℝ) | Loops f B pos z.1 z.2.1 z.2.2} := by
  have : {z : ℝ × ℝ × (ℕ → ℝ) | Loops f B pos z.1 z.2.1 z.2.2} = ⋃ fuel, {z | LoopIn f B fuel pos z.1 z.2.1 z.2.2} := by
    ext z; simp [Loops]
  rw [this]
  exact MeasurableSet.iUnion fun n => measurableSet_loopIn hf hB n pos

theorem loops_moved {x y c d : ℝ} {u : ℕ → ℝ} : Loops f B 2 x y (scons c (scons d u)) ↔ Loops f B 0 x y u := by
  unfold Loops LoopIn
  have : ∀ fuel, rejectionLoop (uni u) f 1 0 1 fuel 0 [x] [y] = rejectionLoop (uni (scons c (scons d u))) f 1 0 1 fuel (0 + 2) [x] [y] := fun fuel =>
    rejectionLoop_moved (fun p => by simp [scons]) f 1 0 1 fuel 0 [x] [y]
  simp only [this, zero_add]

/-- What the loop does from a rejected pair of height `y`: it draws a new point and compares it with the old height. -/
def Again (f : ℝ → ℝ) (B : Set ℝ) (y : ℝ) (u : ℕ → ℝ) : Prop := if f (u 0) < y then Loops f B 2 (u 0) (u 1) u else u 0 ∈ B

theorem measurableSet_again (hf : Measurable f) (hB : MeasurableSet B) : MeasurableSet {z : ℝ × (ℕ → ℝ) | Again f B z.1 z.2} := by
  have hu : ∀ p, Measurable fun z : ℝ × (ℕ → ℝ) => z.2 p := fun p => (measurable_pi_apply p).comp measurable_snd
  exact setIte (measurableSet_lt (hf.comp (hu 0)) measurable_fst) (((hu 0).prodMk ((hu 1).prodMk measurable_snd)) (measurableSet_loops hf hB 2)) ((hu 0) hB)

/-- The probability that the loop returns a point of `B` from a rejected pair of height `y`. -/
noncomputable def again (f : ℝ → ℝ) (B : Set ℝ) (y : ℝ) : ℝ≥0∞ := streamLaw {u | Again f B y u}

theorem measurable_again (hf : Measurable f) (hB : MeasurableSet B) : Measurable (again f B) := measurable_measure_prodMk_left (measurableSet_again hf hB)

/-- The probability that a pair with point `x` and a new height ends in `B`. -/
noncomputable def fresh (f : ℝ → ℝ) (B : Set ℝ) (x : ℝ) : ℝ≥0∞ := ∫⁻ y, (if f x < y then again f B y else B.indicator 1 x) ∂unifLaw

theorem again_eq (hf : Measurable f) (hB : MeasurableSet B) (y : ℝ) :
    again f B y = ∫⁻ x, (if f x < y then fresh f B x else B.indicator 1 x) ∂unifLaw := by
  have hm : MeasurableSet {u | Again f B y u} := (measurable_const.prodMk measurable_id : Measurable fun u : ℕ → ℝ => (y, u)) (measurableSet_again hf hB)
  rw [again, stream_two hm]
  refine lintegral_congr fun x => ?_
  by_cases h : f x < y
  · rw [if_pos h, fresh]
    refine lintegral_congr fun y' => ?_
    have e : ∀ u, Again f B y (scons x (scons y' u)) ↔ if f x < y' then Again f B y' u else x ∈ B := fun u => by
      have h1 : Again f B y (scons x (scons y' u)) ↔ Loops f B 2 x y' (scons x (scons y' u)) := by
        simp [Again, scons, h]
      rw [h1, loops_moved, loops_iff]
      rfl
    simp only [Set.mem_ofPred_eq, e]
    by_cases h' : f x < y'
    · simp [h', again]
    · by_cases hx : x ∈ B <;> simp [h', hx]
  · rw [if_neg h]
    have e : ∀ y' u, Again f B y (scons x (scons y' u)) ↔ x ∈ B := fun y' u => by simp [Again, scons, h]
    simp only [Set.mem_ofPred_eq, e]
    by_cases hx : x ∈ B <;> simp [hx]

/-- `rejection_sample(f, 1, 0, 1, size=1)` returns a point of `B`. -/
def SizedIn (f : ℝ → ℝ) (B : Set ℝ) (u : ℕ → ℝ) : Prop := ∃ fuel t ys, rejectionSampleN (uni u) f 1 0 1 1 fuel 0 = .ok ([t], ys) ∧ t ∈ B

theorem sized_eq (hf : Measurable f) (hB : MeasurableSet B) : streamLaw {u | SizedIn f B u} = ∫⁻ x, fresh f B x ∂unifLaw := by
  have e0 : ∀ u, SizedIn f B u ↔ Loops f B 2 (u 0) (u 1) u := fun u => by
    simp [SizedIn, Loops, LoopIn, rejectionSampleN, uni]
  have hm : MeasurableSet {u | SizedIn f B u} := by
    simp only [e0]
    exact ((measurable_pi_apply 0).prodMk ((measurable_pi_apply 1).prodMk measurable_id) : Measurable fun u : ℕ → ℝ => (u 0, u 1, u)) (measurableSet_loops hf hB 2)
  rw [stream_two hm]
  refine lintegral_congr fun x => ?_
  rw [fresh]
  refine lintegral_congr fun y => ?_
  have e : ∀ u, SizedIn f B (scons x (scons y u)) ↔ if f x < y then Again f B y u else x ∈ B := fun u => by
    rw [e0, show scons x (scons y u) 0 = x from rfl, show scons x (scons y u) 1 = y from rfl, loops_moved, loops_iff]
    rfl
  simp only [Set.mem_ofPred_eq, e]
  by_cases h' : f x < y
  · simp [h', again]
  · by_cases hx : x ∈ B <;> simp [h', hx]

/-- A step function: `0` on the first third, `1/2` on the second and `1` on the last. -/
noncomputable def steps (x : ℝ) : ℝ := if x < 1 / 3 then 0 else if x < 2 / 3 then 1 / 2 else 1

theorem measurable_steps : Measurable steps :=
  Measurable.ite measurableSet_Iio measurable_const (Measurable.ite measurableSet_Iio measurable_const measurable_const)

theorem bands3 {g : ℝ → ℝ≥0∞} {c d e : ℝ≥0∞} (h1 : ∀ x, 0 < x → x < 1 / 3 → g x = c) (h2 : ∀ x, 1 / 3 < x → x < 2 / 3 → g x = d) (h3 : ∀ x, 2 / 3 < x → x < 1 → g x = e) :
    ∫⁻ x, g x ∂unifLaw = c * ENNReal.ofReal (1 / 3) + d * ENNReal.ofReal (1 / 3) + e * ENNReal.ofReal (1 / 3) := by
  unfold unifLaw
  rw [← Ico_union_Ico_eq_Ico (show (0 : ℝ) ≤ 2 / 3 by norm_num) (show (2 / 3 : ℝ) ≤ 1 by norm_num),
    lintegral_union measurableSet_Ico (Ico_disjoint_Ico_same), ← Ico_union_Ico_eq_Ico (show (0 : ℝ) ≤ 1 / 3 by norm_num) (show (1 / 3 : ℝ) ≤ 2 / 3 by norm_num),
    lintegral_union measurableSet_Ico (Ico_disjoint_Ico_same), lintegral_band h1, lintegral_band h2, lintegral_band h3]
  norm_num

theorem bands2 {g : ℝ → ℝ≥0∞} {c d : ℝ≥0∞} (h1 : ∀ x, 0 < x → x < 1 / 2 → g x = c) (h2 : ∀ x, 1 / 2 < x → x < 1 → g x = d) :
    ∫⁻ x, g x ∂unifLaw = c * ENNReal.ofReal (1 / 2) + d * ENNReal.ofReal (1 / 2) := by
  unfold unifLaw
  rw [← Ico_union_Ico_eq_Ico (show (0 : ℝ) ≤ 1 / 2 by norm_num) (show (1 / 2 : ℝ) ≤ 1 by norm_num),
    lintegral_union measurableSet_Ico (Ico_disjoint_Ico_same), lintegral_band h1, lintegral_band h2]
  norm_num

/-- The probability that `size=1` gives a point of a union of thirds. -/
theorem sized_steps (hB : MeasurableSet B) {p q : ℝ} (hp : 0 ≤ p) (hq : 0 ≤ q) (h2 : ∀ x, 1 / 3 < x → x < 2 / 3 → B.indicator (1 : ℝ → ℝ≥0∞) x = ENNReal.ofReal p)
    (h3 : ∀ x, 2 / 3 < x → x < 1 → B.indicator (1 : ℝ → ℝ≥0∞) x = ENNReal.ofReal q) :
    streamLaw {u | SizedIn steps B u} = ENNReal.ofReal ((7 * p + 12 * q) / 19) := by
  have s1 : ∀ x : ℝ, 0 < x → x < 1 / 3 → steps x = 0 := fun x _ h => if_pos h
  have s2 : ∀ x : ℝ, 1 / 3 < x → x < 2 / 3 → steps x = 1 / 2 := fun x h h' => by rw [steps, if_neg (by linarith), if_pos h']
  have s3 : ∀ x : ℝ, 2 / 3 < x → x < 1 → steps x = 1 := fun x h h' => by rw [steps, if_neg (by linarith), if_neg (by linarith)]
  obtain ⟨A, hA⟩ : ∃ A, A = ∫⁻ y, again steps B y ∂unifLaw := ⟨_, rfl⟩
  obtain ⟨I, hI⟩ : ∃ I, I = ∫⁻ y, (if (1 / 2 : ℝ) < y then again steps B y else ENNReal.ofReal p) ∂unifLaw := ⟨_, rfl⟩
  have f1 : ∀ x, 0 < x → x < 1 / 3 → fresh steps B x = A := fun x h h' => by
    rw [hA, fresh, s1 x h h']
    refine lintegral_congr_ae ?_
    filter_upwards [unifLaw_Ioo] with y hy
    rw [if_pos hy.1]
  have f2 : ∀ x, 1 / 3 < x → x < 2 / 3 → fresh steps B x = I := fun x h h' => by
    rw [hI, fresh, s2 x h h', h2 x h h']
  have f3 : ∀ x, 2 / 3 < x → x < 1 → fresh steps B x = ENNReal.ofReal q := fun x h h' => by
    rw [fresh, s3 x h h', h3 x h h', lintegral_congr_ae (g := fun _ => ENNReal.ofReal q) (by
      filter_upwards [unifLaw_Ioo] with y hy
      rw [if_neg hy.2.not_gt])]
    simp
  have g1 : ∀ y, 0 < y → y < 1 / 2 → again steps B y = A * ENNReal.ofReal (1 / 3) + ENNReal.ofReal p * ENNReal.ofReal (1 / 3) + ENNReal.ofReal q * ENNReal.ofReal (1 / 3) := fun y h h' => by
    rw [again_eq measurable_steps hB]
    refine bands3 (fun x k k' => ?_) (fun x k k' => ?_) (fun x k k' => ?_)
    · rw [if_pos (by rwa [s1 x k k']), f1 x k k']
    · rw [if_neg (by rw [s2 x k k']; linarith), h2 x k k']
    · rw [if_neg (by rw [s3 x k k']; linarith), h3 x k k']
  have g2 : ∀ y, 1 / 2 < y → y < 1 → again steps B y = A * ENNReal.ofReal (1 / 3) + I * ENNReal.ofReal (1 / 3) + ENNReal.ofReal q * ENNReal.ofReal (1 / 3) := fun y h h' => by
    rw [again_eq measurable_steps hB]
    refine bands3 (fun x k k' => ?_) (fun x k k' => ?_) (fun x k k' => ?_)
    · rw [if_pos (by rw [s1 x k k']; linarith), f1 x k k']
    · rw [if_pos (by rwa [s2 x k k']), f2 x k k']
    · rw [if_neg (by rw [s3 x k k']; linarith), h3 x k k']
  have hA' := hA.trans (bands2 g1 g2)
  have hI' := hI.trans (bands2 (c := ENNReal.ofReal p) (fun y _ h => if_neg h.not_gt) (fun y h h' => (if_pos h).trans (g2 y h h')))
  have hle : ∀ y, again steps B y ≤ 1 := fun y => prob_le_one
  have hAf : A ≠ ∞ := by
    refine ne_top_of_le_ne_top ENNReal.one_ne_top (hA.le.trans ((lintegral_mono hle).trans ?_))
    simp
  have hIf : I ≠ ∞ := by
    refine ne_top_of_le_ne_top (b := 1 + ENNReal.ofReal p) (by simp) (hI.le.trans ((lintegral_mono (g := fun _ => 1 + ENNReal.ofReal p) fun y => ?_).trans ?_))
    · dsimp only
      split
      · exact (hle y).trans le_self_add
      · exact le_add_self
    · simp
  obtain ⟨α, hα, rfl⟩ : ∃ α : ℝ, 0 ≤ α ∧ A = ENNReal.ofReal α := ⟨A.toReal, ENNReal.toReal_nonneg, (ENNReal.ofReal_toReal hAf).symm⟩
  obtain ⟨ι, hι, rfl⟩ : ∃ ι : ℝ, 0 ≤ ι ∧ I = ENNReal.ofReal ι := ⟨I.toReal, ENNReal.toReal_nonneg, (ENNReal.ofReal_toReal hIf).symm⟩
  rw [sized_eq measurable_steps hB, bands3 f1 f2 f3]
  have m : ∀ r s : ℝ, 0 ≤ r → ENNReal.ofReal r * ENNReal.ofReal s = ENNReal.ofReal (r * s) := fun r s h => (ENNReal.ofReal_mul h).symm
  have ad : ∀ r s : ℝ, 0 ≤ r → 0 ≤ s → ENNReal.ofReal r + ENNReal.ofReal s = ENNReal.ofReal (r + s) := fun r s h h' => (ENNReal.ofReal_add h h').symm
  rw [m _ _ hα, m _ _ hp, m _ _ hq, m _ _ hι, ad _ _ (by positivity) (by positivity), ad _ _ (by positivity) (by positivity), ad _ _ (by positivity) (by positivity), ad _ _ (by positivity) (by positivity),
    m _ _ (by positivity), m _ _ (by positivity), ad _ _ (by positivity) (by positivity), ENNReal.ofReal_eq_ofReal_iff hα (by positivity)] at hA'
  rw [m _ _ hα, m _ _ hp, m _ _ hq, m _ _ hι, ad _ _ (by positivity) (by positivity), ad _ _ (by positivity) (by positivity),
    m _ _ (by positivity), ad _ _ (by positivity) (by positivity), ENNReal.ofReal_eq_ofReal_iff hι (by positivity)] at hI'
  rw [m _ _ hα, m _ _ hι, m _ _ hq, ad _ _ (by positivity) (by positivity), ad _ _ (by positivity) (by positivity), ENNReal.ofReal_eq_ofReal_iff (by positivity) (by positivity)]
  linarith

/-- **With `size`** the claim fails: for the step function with heights `0`, `1/2`, `1` on the thirds of `[0, 1]`, `rejection_sample(f, 1, size=1)` returns a point of the middle third with
probability `7/19` and one of the last third with probability `12/19`; the density gives `1/3` and `2/3`, which are the probabilities without `size`. -/
theorem C132_sized_refuted :
    streamLaw {u | ∃ fuel t ys, rejectionSampleN (uni u) steps 1 0 1 1 fuel 0 = .ok ([t], ys) ∧ t ∈ Ico (1 / 3 : ℝ) (2 / 3)} = ENNReal.ofReal (7 / 19) ∧
    streamLaw {u | ∃ fuel t ys, rejectionSampleN (uni u) steps 1 0 1 1 fuel 0 = .ok ([t], ys) ∧ t ∈ Icc (2 / 3 : ℝ) 1} = ENNReal.ofReal (12 / 19) ∧
    streamLaw {u | ∃ fuel x pos', rejectionSample (uni u) steps 1 0 1 fuel 0 = .ok (x, pos') ∧ x ∈ Ico (1 / 3 : ℝ) (2 / 3)} = ENNReal.ofReal (1 / 3) := by
  refine ⟨?_, ?_, ?_⟩
  · rw [show (7 / 19 : ℝ) = (7 * 1 + 12 * 0) / 19 by norm_num]
    refine sized_steps measurableSet_Ico (by norm_num) le_rfl (fun x h h' => ?_) (fun x h h' => ?_)
    · rw [indicator_of_mem (show x ∈ Ico (1 / 3 : ℝ) (2 / 3) from ⟨h.le, h'⟩)]; simp
    · rw [indicator_of_notMem (show x ∉ Ico (1 / 3 : ℝ) (2 / 3) from fun k => absurd k.2 h.not_gt)]; simp
  · rw [show (12 / 19 : ℝ) = (7 * 0 + 12 * 1) / 19 by norm_num]
    refine sized_steps measurableSet_Icc le_rfl (by norm_num) (fun x h h' => ?_) (fun x h h' => ?_)
    · rw [indicator_of_notMem (show x ∉ Icc (2 / 3 : ℝ) 1 from fun k => absurd h' k.1.not_gt)]; simp
    · rw [indicator_of_mem (show x ∈ Icc (2 / 3 : ℝ) 1 from ⟨h.le, h'.le⟩)]; simp
  · have hb : ∀ x, 0 ≤ steps x ∧ steps x ≤ 1 := fun x => by
      unfold steps
      split_ifs <;> norm_num
    have hv : ∀ C : Set ℝ, MeasurableSet C → ∫⁻ x in Icc (0 : ℝ) 1 ∩ C, ENNReal.ofReal (steps x) = ∫⁻ x, C.indicator (fun x => ENNReal.ofReal (steps x)) x ∂unifLaw := fun C hC => by
      unfold unifLaw
      rw [setLIntegral_indicator hC, inter_comm]
      exact (setLIntegral_congr (Filter.EventuallyEq.inter (Filter.EventuallyEq.refl _ C) Ico_ae_eq_Icc)).symm
    have s1 : ∀ x : ℝ, 0 < x → x < 1 / 3 → steps x = 0 := fun x _ h => if_pos h
    have s2 : ∀ x : ℝ, 1 / 3 < x → x < 2 / 3 → steps x = 1 / 2 := fun x h h' => by rw [steps, if_neg (by linarith), if_pos h']
    have s3 : ∀ x : ℝ, 2 / 3 < x → x < 1 → steps x = 1 := fun x h h' => by rw [steps, if_neg (by linarith), if_neg (by linarith)]
    have v1 : ∫⁻ x in Icc (0 : ℝ) 1, ENNReal.ofReal (steps x) = ENNReal.ofReal (1 / 2) := by
      have := hv univ MeasurableSet.univ
      rw [inter_univ] at this
      rw [this, bands3 (c := 0) (d := ENNReal.ofReal (1 / 2)) (e := 1) (fun x h h' => by simp [s1 x h h']) (fun x h h' => by simp [s2 x h h']) (fun x h h' => by simp [s3 x h h']),
        zero_mul, zero_add, one_mul, ← ENNReal.ofReal_mul (by norm_num), ← ENNReal.ofReal_add (by norm_num) (by norm_num)]
      norm_num
    have v2 : ∫⁻ x in Icc (0 : ℝ) 1 ∩ Ico (1 / 3 : ℝ) (2 / 3), ENNReal.ofReal (steps x) = ENNReal.ofReal (1 / 6) := by
      rw [hv _ measurableSet_Ico, bands3 (c := 0) (d := ENNReal.ofReal (1 / 2)) (e := 0) (fun x h h' => indicator_of_notMem (fun k => absurd h' k.1.not_gt) _)
        (fun x h h' => by rw [indicator_of_mem (show x ∈ Ico (1 / 3 : ℝ) (2 / 3) from ⟨h.le, h'⟩), s2 x h h']) (fun x h h' => indicator_of_notMem (fun k => absurd k.2 h.not_gt) _),
        zero_mul, zero_add, add_zero, ← ENNReal.ofReal_mul (by norm_num)]
      norm_num
    rw [C132_scalar measurable_steps one_pos one_pos (fun x _ => hb x) (by rw [v1]; simp) measurableSet_Ico 0, v1, v2, ← ENNReal.ofReal_div_of_pos (by norm_num)]
    norm_num

end Verif.Mix
