import Verif.Lemmas.Stream
import Verif.Lemmas.GibbsStep
import Verif.Lemmas.GibbsDemo
import Verif.Props.C46
import Verif.Props.C64
import Verif.RandGen

/-!
# C85: the Gumbel-max trick draws from the normalised probabilities

`gumbel_max_sampling` adds `-log(-log(U))` to the log-probabilities, with independent uniform `U`, and takes the argmax.  For every column with a finite entry, the result is
`i` with probability `exp(logp_i) / sum_j exp(logp_j)` (`C85_column`); the columns of a matrix are independent (`C85_matrix`), also with the matrix filled from a stream in the order of the
code (`C85_stream`).  Hence `_update_d` draws every label independently from the component densities restricted to the slice (`C85_update`).  The value of `-log(-log(0))` does not matter.
Hence the law that `RandGen` assumes for the Gumbel draw of `BetaInDirichlet` is the law of this code (`C85_generator`).
-/

namespace Verif.Mix
open MeasureTheory
open scoped ENNReal

/-- The weight of a log-probability. -/
noncomputable def botExp : WithBot ℝ → ℝ
  | ⊥ => 0
  | (x : ℝ) => Real.exp x

/-- `-np.log(-np.log(u))` for `0 < u < 1`, with any value elsewhere. -/
def IsGumbel (nz : ℝ → ℝ) : Prop := ∀ u, 0 < u → u < 1 → nz u = -Real.log (-Real.log u)

theorem botExp_nonneg (x : WithBot ℝ) : 0 ≤ botExp x := by
  cases x with
  | bot => exact le_rfl
  | coe x => exact (Real.exp_pos x).le

theorem botExp_pos {x : WithBot ℝ} (h : x ≠ ⊥) : 0 < botExp x := by
  cases x with
  | bot => exact absurd rfl h
  | coe x => exact Real.exp_pos x

theorem botExp_ne {x : WithBot ℝ} (h : 0 < botExp x) : ∃ y : ℝ, x = y := by
  cases x with
  | bot => exact absurd h (lt_irrefl _)
  | coe x => exact ⟨x, rfl⟩

variable {nz : ℝ → ℝ} (hnz : IsGumbel nz)
include hnz

/-- The perturbed values compare like the race. -/
theorem perturbed_lt {u v : ℝ} (hu : 0 < u ∧ u < 1) (hv : 0 < v ∧ v < 1) (x : WithBot ℝ) (y : ℝ) (h : u < v ^ (botExp x / Real.exp y)) :
    x + (nz u : WithBot ℝ) < (y : WithBot ℝ) + (nz v : WithBot ℝ) := by
  cases x with
  | bot => rw [WithBot.bot_add, ← WithBot.coe_add]; exact WithBot.bot_lt_coe _
  | coe x =>
    rw [← WithBot.coe_add, ← WithBot.coe_add, WithBot.coe_lt_coe, hnz u hu.1 hu.2, hnz v hv.1 hv.2]
    have h1 : Real.log u < Real.exp x / Real.exp y * Real.log v := by
      rw [← Real.log_rpow hv.1]
      exact Real.log_lt_log hu.1 h
    have hlv : 0 < -Real.log v := by have := Real.log_neg hv.1 hv.2; linarith
    have hpos : 0 < Real.exp x / Real.exp y := div_pos (Real.exp_pos x) (Real.exp_pos y)
    have h2 : Real.exp x / Real.exp y * -Real.log v < -Real.log u := by rw [mul_neg]; linarith
    have h3 := Real.log_lt_log (mul_pos hpos hlv) h2
    rw [Real.log_mul hpos.ne' hlv.ne', Real.log_div (Real.exp_pos x).ne' (Real.exp_pos y).ne', Real.log_exp, Real.log_exp] at h3
    linarith

theorem column_of_wins {logp : List (WithBot ℝ)} {u : Fin logp.length → ℝ} (hu : ∀ j, 0 < u j ∧ u j < 1) {i : Fin logp.length} (hi : 0 < botExp logp[i])
    (hw : Wins (fun j : Fin logp.length => botExp logp[j]) i u) : gumbelColumn logp (List.ofFn (fun j => nz (u j))) = .ok (i : ℕ) := by
  have hl : (List.ofFn (fun j => nz (u j))).length = logp.length := List.length_ofFn
  have hge : ∀ (j : ℕ) (hj : j < logp.length), (perturbed logp (List.ofFn (fun j => nz (u j))))[j]'(by rw [perturbed_length hl]; exact hj) =
      logp[j] + (nz (u ⟨j, hj⟩) : WithBot ℝ) := fun j hj => by rw [perturbed_get hl hj, List.getElem_ofFn]
  obtain ⟨y, hy⟩ := botExp_ne hi
  have key : ∀ (j : ℕ) (hj : j < logp.length), j ≠ i → logp[j] + (nz (u ⟨j, hj⟩) : WithBot ℝ) < logp[i] + (nz (u i) : WithBot ℝ) := by
    intro j hj hne
    have := hw ⟨j, hj⟩ (fun h => hne (congrArg Fin.val h))
    rw [hy]
    refine perturbed_lt hnz (hu _) (hu _) _ _ ?_
    simp only [hy] at this
    exact this
  refine argmax_eq_iff.2 (?_ : IsArgmax (perturbed logp _) i)
  refine ⟨by rw [perturbed_length hl]; exact i.2, fun j hj => ?_, fun j hj => ?_⟩
  · rw [hge i i.2, hge j (by rwa [perturbed_length hl] at hj)]
    by_cases h : j = i
    · subst h; exact le_rfl
    · exact (key j _ h).le
  · rw [hge i i.2, hge j (hj.trans i.2)]
    exact key j _ (by omega)

theorem column_ae {logp : List (WithBot ℝ)} (hf : ∃ x ∈ logp, x ≠ ⊥) :
    ∀ᵐ u ∂Measure.pi (fun _ : Fin logp.length => unifLaw), ∀ k, gumbelColumn logp (List.ofFn (fun j => nz (u j))) = .ok k ↔
      ∃ h : k < logp.length, 0 < botExp logp[k] ∧ Wins (fun j : Fin logp.length => botExp logp[j]) ⟨k, h⟩ u := by
  obtain ⟨x, hx, hxb⟩ := hf
  obtain ⟨j0, hj0, rfl⟩ := List.mem_iff_getElem.1 hx
  have hI : ∀ᵐ u ∂Measure.pi (fun _ : Fin logp.length => unifLaw), ∀ j, 0 < u j ∧ u j < 1 := by
    rw [ae_all_iff]
    intro j
    exact (measurePreserving_eval (fun _ : Fin logp.length => unifLaw) j).quasiMeasurePreserving.ae unifLaw_Ioo
  have hp : ∀ j : Fin logp.length, 0 ≤ botExp logp[j] := fun j => botExp_nonneg _
  filter_upwards [hI, ae_wins hp (Finset.sum_pos' (fun j _ => hp j) ⟨⟨j0, hj0⟩, Finset.mem_univ _, botExp_pos hxb⟩)] with u hu ⟨i, hi, hw⟩ k
  constructor
  · intro h
    rw [column_of_wins hnz hu hi hw] at h
    injection h with h
    subst h
    exact ⟨i.2, hi, hw⟩
  · rintro ⟨h, h1, h2⟩
    exact column_of_wins hnz hu (i := ⟨k, h⟩) h1 h2

omit hnz in
theorem sum_botExp (logp : List (WithBot ℝ)) : ∑ j : Fin logp.length, botExp logp[j] = (logp.map botExp).sum := by
  rw [← List.sum_ofFn]
  congr 1
  apply List.ext_getElem
  · simp
  · intro i h1 h2; simp

/-- The law of one column. -/
theorem C85_column {logp : List (WithBot ℝ)} (hf : ∃ x ∈ logp, x ≠ ⊥) (k : ℕ) :
    (Measure.pi (fun _ : Fin logp.length => unifLaw)).real {u | gumbelColumn logp (List.ofFn (fun j => nz (u j))) = .ok k} = choiceProb (logp.map botExp) k := by
  have hae := column_ae hnz hf
  have hset : {u | gumbelColumn logp (List.ofFn (fun j => nz (u j))) = .ok k} =ᵐ[Measure.pi (fun _ : Fin logp.length => unifLaw)]
      {u | ∃ h : k < logp.length, 0 < botExp logp[k] ∧ Wins (fun j : Fin logp.length => botExp logp[j]) ⟨k, h⟩ u} := by
    filter_upwards [hae] with u hu
    exact propext (hu k)
  rw [measureReal_def, measure_congr hset]
  unfold choiceProb
  by_cases h : k < logp.length
  · by_cases hk : 0 < botExp logp[k]
    · simp only [h, hk, true_and, exists_true_left]
      rw [prob_wins (p := fun j : Fin logp.length => botExp logp[j]) (fun j => botExp_nonneg _) (i := ⟨k, h⟩) hk, ENNReal.toReal_ofReal (div_nonneg (botExp_nonneg _) (Finset.sum_nonneg fun j _ => botExp_nonneg _))]
      have := sum_botExp logp
      rw [this, List.getElem?_map, List.getElem?_eq_getElem h]
      rfl
    · simp only [h, hk, false_and, exists_false]
      have : botExp logp[k] = 0 := le_antisymm (not_lt.1 hk) (botExp_nonneg _)
      rw [List.getElem?_map, List.getElem?_eq_getElem h]
      simp [this]
  · simp [h]

omit hnz in
theorem sampling_iff : ∀ {cols : List (List (WithBot ℝ))} {noise : List (List ℝ)} {is : List ℕ}, noise.length = cols.length → is.length = cols.length →
    (gumbelMaxSampling cols noise = .ok is ↔ ∀ (i : ℕ) c g k, cols[i]? = some c → noise[i]? = some g → is[i]? = some k → gumbelColumn c g = .ok k)
  | [], [], [], _, _ => by simp [gumbelMaxSampling]
  | [], _ :: _, _, h, _ => by simp at h
  | [], _, _ :: _, _, h => by simp at h
  | _ :: _, [], _, h, _ => by simp at h
  | _ :: _, _, [], _, h => by simp at h
  | c :: cs, g :: gs, k :: is, h1, h2 => by
    have ih := sampling_iff (cols := cs) (noise := gs) (is := is) (by simpa using h1) (by simpa using h2)
    rw [gumbelMaxSampling]
    constructor
    · intro h i c' g' k' hc hg hk
      cases he : gumbelColumn c g with
      | error e => rw [he] at h; cases h
      | ok j =>
        rw [he] at h
        cases hr : gumbelMaxSampling cs gs with
        | error e => rw [hr] at h; cases h
        | ok js =>
          rw [hr] at h
          simp only [Except.ok.injEq, List.cons.injEq] at h
          obtain ⟨rfl, rfl⟩ := h
          cases i with
          | zero => simp only [List.getElem?_cons_zero, Option.some.injEq] at hc hg hk; subst hc hg hk; exact he
          | succ i => simp only [List.getElem?_cons_succ] at hc hg hk; exact ih.1 hr i c' g' k' hc hg hk
    · intro h
      rw [h 0 c g k rfl rfl rfl, ih.2 fun i c' g' k' hc hg hk => h (i + 1) c' g' k' hc hg hk]

omit hnz in
theorem matrix_set {cols : List (List (WithBot ℝ))} {k : ℕ} {is : List ℕ} (his : is.length = cols.length) :
    {u : Fin cols.length → Fin k → ℝ | gumbelMaxSampling cols (List.ofFn (fun i => List.ofFn (fun j => nz (u i j)))) = .ok is} =
      Set.univ.pi (fun i : Fin cols.length => {v : Fin k → ℝ | gumbelColumn cols[i] (List.ofFn (fun j => nz (v j))) = .ok (is[i]'(by rw [his]; exact i.2))}) := by
  ext u
  simp only [Set.mem_ofPred_eq, Set.mem_univ_pi]
  rw [sampling_iff (List.length_ofFn) his]
  constructor
  · intro h i
    exact h i _ _ _ (List.getElem?_eq_getElem i.2) (by rw [List.getElem?_ofFn, dif_pos i.2]) (List.getElem?_eq_getElem (by rw [his]; exact i.2))
  · intro h i c g l hc hg hl
    have hi : i < cols.length := (List.getElem?_eq_some_iff.1 hc).1
    rw [List.getElem?_eq_getElem hi] at hc
    rw [List.getElem?_ofFn, dif_pos hi] at hg
    rw [List.getElem?_eq_getElem (by rw [his]; exact hi)] at hl
    cases hc; cases hg; cases hl
    exact h ⟨i, hi⟩

/-- The columns are independent. -/
theorem C85_matrix {cols : List (List (WithBot ℝ))} {k : ℕ} (hk : ∀ c ∈ cols, c.length = k) (hf : ∀ c ∈ cols, ∃ x ∈ c, x ≠ ⊥) {is : List ℕ} (his : is.length = cols.length) :
    (Measure.pi (fun _ : Fin cols.length => Measure.pi (fun _ : Fin k => unifLaw))).real
      {u | gumbelMaxSampling cols (List.ofFn (fun i => List.ofFn (fun j => nz (u i j)))) = .ok is} =
      ∏ i : Fin cols.length, choiceProb (cols[i].map botExp) (is[i]'(by rw [his]; exact i.2)) := by
  rw [measureReal_def, matrix_set his, Measure.pi_pi, ENNReal.toReal_prod]
  refine Finset.prod_congr rfl fun i _ => ?_
  obtain rfl := hk _ (List.getElem_mem i.2)
  exact C85_column hnz (hf _ (List.getElem_mem i.2)) _

/-- A log-weight of the weight models (`none` is `-inf`) as one of the mixture model. -/
def ofOpt : Option ℝ → WithBot ℝ
  | none => ⊥
  | some x => (x : WithBot ℝ)

omit hnz in
theorem botExp_eq (l : List (Option ℝ)) : (l.map ofOpt).map botExp = l.map expWeight := by
  rw [List.map_map]
  refine List.map_congr_left fun x _ => ?_
  cases x <;> rfl

/-- The law that `RandGen` assumes for a Gumbel draw is that of the code. -/
theorem C85_generator (G : RandGen) {l : List (Option ℝ)} (hf : ∃ x ∈ l, x ≠ none) (k : ℕ) :
    G.ν.real {s | G.gumbel l s = k} = (Measure.pi (fun _ : Fin l.length => unifLaw)).real
      {u | gumbelColumn (l.map ofOpt) (List.ofFn (fun j => nz (u j))) = .ok k} := by
  rw [G.gumbel_law l k hf, ← botExp_eq]
  have hlen : (l.map ofOpt).length = l.length := List.length_map _
  have h := C85_column hnz (logp := l.map ofOpt) (by
    obtain ⟨x, hx, hne⟩ := hf
    refine ⟨_, List.mem_map.2 ⟨x, hx, rfl⟩, ?_⟩
    cases x with
    | none => exact absurd rfl hne
    | some x => exact WithBot.coe_ne_bot) k
  rw [← h]
  generalize l.map ofOpt = l' at hlen
  revert hlen
  generalize l.length = n
  rintro rfl
  rfl

/-! ### The label update of the Gibbs sampler -/

/-- The surrounding with another source of Gumbel noise. -/
def withNoise {m : ℕ} {Atom : Type} (W : World ℝ m Atom) (g : ℕ → ℝ) : World ℝ m Atom := { W with gumbel := g }

/-- The conditional probabilities (not normalised) of the labels of an observation: the density of the component, if its weight is above the slice level. -/
noncomputable def sliceWeights {m : ℕ} {Atom : Type} (W : World ℝ m Atom) (w : List ℝ) (as : List Atom) (x : Fin m → ℝ) (u : ℝ) : List ℝ :=
  List.zipWith (fun a wj => if u < wj then botExp (W.logpdf x a) else 0) as w

section
variable {C : WeightClass ℝ} {m : ℕ} {Atom : Type} {W : World ℝ m Atom} {ω : Oracle ℝ}

omit hnz in
theorem column_botExp (w : List ℝ) (as : List Atom) (x : Fin m → ℝ) (u : ℝ) : (GM.column W w as x u).map botExp = sliceWeights W w as x u := by
  unfold GM.column sliceWeights
  rw [List.map_zipWith]
  congr 1
  funext a wj
  by_cases h : u < wj
  · simp [h]
  · simp only [gt_iff_lt, h, if_false, WithBot.add_bot]; rfl

omit hnz in
theorem getAtoms_withNoise (g : ℕ → ℝ) : ∀ js, (GM.getAtoms (C := C) (withNoise W g) js) = GM.getAtoms W js
  | [] => rfl
  | j :: js => by
    rw [GM.getAtoms, GM.getAtoms, getAtoms_withNoise g js]
    rfl

omit hnz in
theorem updateD_eq {s s' : GM C m Atom × ℕ} {as : List Atom} (hA : GM.getAtoms W (List.range (C.getW s.1.wst.1).length) ω s = (.ok as, s'))
    (hw : C.getW s.1.wst.1 ≠ []) (hy : s.1.y.length ≠ 1) (hu : s.1.u.length = s.1.y.length) (g : ℕ → ℝ) :
    GM.updateD (withNoise W g) ω s = match gumbelMaxSampling (List.zipWith (GM.column W (C.getW s.1.wst.1) as) s.1.y s.1.u)
        ((List.range s.1.y.length).map (GM.noise (withNoise W g) s'.2 (C.getW s.1.wst.1).length s.1.y.length)) with
      | .ok d => (.ok (), ({ s'.1 with d := d }, s'.2 + (C.getW s.1.wst.1).length * s.1.y.length))
      | .error e => (.error e, (s'.1, s'.2 + (C.getW s.1.wst.1).length * s.1.y.length)) := by
  have h0 : (C.getW s.1.wst.1).length ≠ 0 := fun h => hw (List.length_eq_zero_iff.1 h)
  have hA' : GM.getAtoms (withNoise W g) (List.range (C.getW s.1.wst.1).length) ω s = (.ok as, s') := by rw [getAtoms_withNoise]; exact hA
  have hn : ¬(s.1.y.length = 1 ∨ (C.getW s.1.wst.1).length = 0 ∨ s.1.u.length ≠ s.1.y.length) := by rintro (h | h | h); exacts [hy h, h0 h, h hu]
  unfold GM.updateD
  simp only [M.bind_apply, M.self, hA', if_neg hn, GM.drawNoise]
  have hc : GM.column (withNoise W g) = GM.column W := rfl
  rw [hc]
  cases gumbelMaxSampling (List.zipWith (GM.column W (C.getW s.1.wst.1) as) s.1.y s.1.u)
        ((List.range s.1.y.length).map (GM.noise (withNoise W g) s'.2 (C.getW s.1.wst.1).length s.1.y.length)) with
  | ok d => rfl
  | error e => rfl

omit hnz in
theorem noise_eq (g : ℕ → ℝ) (p k n i : ℕ) : GM.noise (withNoise W (fun q => nz (g q))) p k n i = List.ofFn (fun j : Fin k => nz (g (p + j * n + i))) := by
  unfold GM.noise withNoise
  rw [List.ofFn_eq_map, ← List.map_coe_finRange_eq_range, List.map_map]
  rfl

theorem column_null {logp : List (WithBot ℝ)} {n : ℕ} (hn : logp.length = n) (hf : ∃ x ∈ logp, x ≠ ⊥) (k : ℕ) :
    NullMeasurableSet {u | gumbelColumn logp (List.ofFn (fun j => nz (u j))) = .ok k} (Measure.pi (fun _ : Fin n => unifLaw)) := by
  subst hn
  have hae := column_ae hnz hf
  have hset : {u | gumbelColumn logp (List.ofFn (fun j => nz (u j))) = .ok k} =ᵐ[Measure.pi (fun _ : Fin logp.length => unifLaw)]
      {u | ∃ h : k < logp.length, 0 < botExp logp[k] ∧ Wins (fun j : Fin logp.length => botExp logp[j]) ⟨k, h⟩ u} := by
    filter_upwards [hae] with u hu
    exact propext (hu k)
  refine NullMeasurableSet.congr (MeasurableSet.nullMeasurableSet ?_) hset.symm
  by_cases h : k < logp.length
  · by_cases hk : 0 < botExp logp[k]
    · simp only [h, hk, true_and, exists_true_left]
      exact measurableSet_wins _ _
    · simp only [hk, false_and, exists_false]
      exact MeasurableSet.empty
  · have : {u : Fin logp.length → ℝ | ∃ h : k < logp.length, 0 < botExp logp[k] ∧ Wins (fun j : Fin logp.length => botExp logp[j]) ⟨k, h⟩ u} = ∅ := by
      ext u
      simp [h]
    rw [this]
    exact MeasurableSet.empty

/-- The law of the result when the noise comes from a stream, in the order of the code. -/
theorem C85_stream {cols : List (List (WithBot ℝ))} {k n : ℕ} (hn : cols.length = n) (hk : ∀ c ∈ cols, c.length = k) (hf : ∀ c ∈ cols, ∃ x ∈ c, x ≠ ⊥) {is : List ℕ}
    (his : is.length = cols.length) (p : ℕ) :
    streamLaw.real {g | gumbelMaxSampling cols ((List.range n).map (GM.noise (withNoise W (fun q => nz (g q))) p k n)) = .ok is} =
      ∏ i : Fin cols.length, choiceProb (cols[i].map botExp) (is[i]'(by rw [his]; exact i.2)) := by
  subst hn
  have he : Function.Injective (Function.uncurry (fun (i : Fin cols.length) (j : Fin k) => p + j * cols.length + i)) := by
    rintro ⟨i, j⟩ ⟨i', j'⟩ h
    simp only [Function.uncurry] at h
    have h1 : (j : ℕ) * cols.length + i = j' * cols.length + i' := by omega
    have hp : 0 < cols.length := i.pos
    have hj : (j : ℕ) = j' := by
      have e : ∀ (a : ℕ) (b : Fin cols.length), (a * cols.length + b) / cols.length = a := fun a b => by
        rw [Nat.mul_comm, Nat.mul_add_div hp, Nat.div_eq_of_lt b.2, Nat.add_zero]
      rw [← e j i, ← e j' i', h1]
    have hi : (i : ℕ) = i' := by rw [hj] at h1; omega
    exact Prod.ext (Fin.ext hi) (Fin.ext hj)
  have hmp := stream_matrix he
  have hnull : NullMeasurableSet {u : Fin cols.length → Fin k → ℝ | gumbelMaxSampling cols (List.ofFn (fun i => List.ofFn (fun j => nz (u i j)))) = .ok is}
      (Measure.pi (fun _ : Fin cols.length => Measure.pi (fun _ : Fin k => unifLaw))) := by
    rw [matrix_set his, Set.univ_pi_eq_iInter]
    refine NullMeasurableSet.iInter fun i => ?_
    exact (column_null hnz (hk _ (List.getElem_mem i.2)) (hf _ (List.getElem_mem i.2)) _).preimage
      (measurePreserving_eval (fun _ : Fin cols.length => Measure.pi (fun _ : Fin k => unifLaw)) i).quasiMeasurePreserving
  rw [← C85_matrix hnz hk hf his, measureReal_def, measureReal_def, ← hmp.measure_preimage hnull]
  congr 2
  ext g
  simp only [Set.mem_ofPred_eq, Set.mem_preimage]
  have : (List.range cols.length).map (GM.noise (withNoise W (fun q => nz (g q))) p k cols.length) =
      List.ofFn (fun i : Fin cols.length => List.ofFn (fun j : Fin k => nz (g (p + j * cols.length + i)))) := by
    rw [List.ofFn_eq_map, ← List.map_coe_finRange_eq_range, List.map_map]
    refine List.map_congr_left fun i _ => ?_
    exact noise_eq g p k cols.length i
  rw [this]

/-- `_update_d` draws the labels independently, with the probabilities of the slice sampler. -/
theorem C85_update {s s' : GM C m Atom × ℕ} {as : List Atom} (hA : GM.getAtoms W (List.range (C.getW s.1.wst.1).length) ω s = (.ok as, s'))
    (hy : s.1.y.length ≠ 1) (hu : s.1.u.length = s.1.y.length) (hw : C.getW s.1.wst.1 ≠ [])
    (hpos : ∀ (i : ℕ) x ui, s.1.y[i]? = some x → s.1.u[i]? = some ui → ∃ (j : ℕ) (a : Atom) (wj : ℝ), as[j]? = some a ∧ (C.getW s.1.wst.1)[j]? = some wj ∧ ui < wj ∧ W.logpdf x a ≠ ⊥)
    {d : List ℕ} (hd : d.length = s.1.y.length) :
    streamLaw.real {g | (GM.updateD (withNoise W (fun p => nz (g p))) ω s).1 = .ok () ∧ (GM.updateD (withNoise W (fun p => nz (g p))) ω s).2.1.d = d} =
      ∏ i : Fin s.1.y.length, choiceProb (sliceWeights W (C.getW s.1.wst.1) as s.1.y[i] (s.1.u[i]'(by rw [hu]; exact i.2))) (d[i]'(by rw [hd]; exact i.2)) := by
  have hlen : as.length = (C.getW s.1.wst.1).length := by
    have := (wp_of_ok hA (GM.getAtoms_spec W _ s)).2.1
    rwa [List.length_range] at this
  have hset : {g : ℕ → ℝ | (GM.updateD (withNoise W (fun p => nz (g p))) ω s).1 = .ok () ∧ (GM.updateD (withNoise W (fun p => nz (g p))) ω s).2.1.d = d} =
      {g : ℕ → ℝ | gumbelMaxSampling (List.zipWith (GM.column W (C.getW s.1.wst.1) as) s.1.y s.1.u)
        ((List.range s.1.y.length).map (GM.noise (withNoise W (fun q => nz (g q))) s'.2 (C.getW s.1.wst.1).length s.1.y.length)) = .ok d} := by
    ext g
    simp only [Set.mem_ofPred_eq]
    rw [updateD_eq hA hw hy hu]
    cases gumbelMaxSampling (List.zipWith (GM.column W (C.getW s.1.wst.1) as) s.1.y s.1.u)
        ((List.range s.1.y.length).map (GM.noise (withNoise W (fun q => nz (g q))) s'.2 (C.getW s.1.wst.1).length s.1.y.length)) with
    | ok d' => simp
    | error e => simp
  have hcl : (List.zipWith (GM.column W (C.getW s.1.wst.1) as) s.1.y s.1.u).length = s.1.y.length := by rw [List.length_zipWith, hu, min_self]
  have hget : ∀ (i : ℕ) (hi : i < s.1.y.length), (List.zipWith (GM.column W (C.getW s.1.wst.1) as) s.1.y s.1.u)[i]'(by rw [hcl]; exact hi) =
      GM.column W (C.getW s.1.wst.1) as s.1.y[i] (s.1.u[i]'(by rw [hu]; exact hi)) := fun i hi => List.getElem_zipWith
  rw [hset, C85_stream hnz hcl ?_ ?_ (by rw [hcl]; exact hd)]
  · revert hget
    generalize hcols : List.zipWith (GM.column W (C.getW s.1.wst.1) as) s.1.y s.1.u = cols at hcl
    intro hget
    refine Fintype.prod_equiv (finCongr hcl) _ _ fun i => ?_
    have h1 := hget i (by rw [← hcl]; exact i.2)
    simp only [Fin.getElem_fin, finCongr_apply, Fin.val_cast]
    rw [h1, column_botExp]
  · intro c hc
    obtain ⟨i, hi, rfl⟩ := List.mem_iff_getElem.1 hc
    rw [hget i (by rw [← hcl]; exact hi), GM.column_length W hlen]
  · intro c hc
    obtain ⟨i, hi, rfl⟩ := List.mem_iff_getElem.1 hc
    have hi' : i < s.1.y.length := by rw [← hcl]; exact hi
    rw [hget i hi']
    obtain ⟨j, a, wj, h1, h2, h3, h4⟩ := hpos i _ _ (List.getElem?_eq_getElem hi') (List.getElem?_eq_getElem (by rw [hu]; exact hi'))
    refine ⟨_, List.mem_of_getElem? (column_get W (x := s.1.y[i]) (ui := s.1.u[i]'(by rw [hu]; exact hi')) h1 h2), ?_⟩
    rw [if_pos h3, add_zero]
    exact h4
end

omit hnz in
/-- Such a noise function exists, and a column that meets the hypotheses: two equal components have probability one half each. -/
example : IsGumbel (fun u => -Real.log (-Real.log u)) ∧ (∃ x ∈ [⊥, ((1 : ℝ) : WithBot ℝ), ((1 : ℝ) : WithBot ℝ)], x ≠ ⊥) ∧
    choiceProb (List.map botExp [⊥, ((1 : ℝ) : WithBot ℝ), ((1 : ℝ) : WithBot ℝ)]) 1 = 1 / 2 := by
  refine ⟨fun u _ _ => rfl, ⟨_, by simp, WithBot.coe_ne_bot (a := 1)⟩, ?_⟩
  have h1 : botExp ((1 : ℝ) : WithBot ℝ) = Real.exp 1 := rfl
  have h2 : botExp ⊥ = 0 := rfl
  simp only [choiceProb, List.map_cons, List.map_nil, h1, h2, List.getElem?_cons_succ, List.getElem?_cons_zero, Option.getD_some, List.sum_cons, List.sum_nil]
  have := Real.exp_pos 1
  field_simp
  ring

omit hnz in
/-- A state that meets the hypotheses of `C85_update`: three observations, two weights, the second slice level above one of the weights. -/
example (W : World ℝ 1 ℝ) (hW : ∀ x a, W.logpdf x a = ((-(x 0 - a) ^ 2 : ℝ) : WithBot ℝ)) (ω : Oracle ℝ) :
    let s : GM (Equal.cls : WeightClass ℝ) 1 ℝ × ℕ :=
      ({ totalIter := 5, burnIn := 0, subsample := 1, nAttr := some 2, muPrior := none, lam := 1, psiPrior := none, nuPrior := none,
         y := [fun _ => 0, fun _ => 1, fun _ => 2], d := [0, 0, 1], theta := [(0, 0), (1, 2)], thetaDefault := true, u := [1 / 4, 1 / 2, 1 / 4], affinity := [],
         mapParams := none, mapLL := ⊥, saved := [], nGroups := [], nAtoms := [], totalSaved := 0, gibbsFitted := false,
         wst := (({ n := 2, w := [1 / 3, 2 / 3], d := [] } : Equal ℝ), 0) }, 7)
    GM.getAtoms W (List.range ((Equal.cls : WeightClass ℝ).getW s.1.wst.1).length) ω s = (.ok [0, 2], s) ∧ s.1.y.length ≠ 1 ∧ s.1.u.length = s.1.y.length ∧
      ∀ (i : ℕ) x ui, s.1.y[i]? = some x → s.1.u[i]? = some ui → ∃ (j : ℕ) (a : ℝ) (wj : ℝ), [(0 : ℝ), 2][j]? = some a ∧
        ((Equal.cls : WeightClass ℝ).getW s.1.wst.1)[j]? = some wj ∧ ui < wj ∧ W.logpdf x a ≠ ⊥ := by
  refine ⟨rfl, by decide, rfl, fun i x ui _ hu => ⟨1, 2, 2 / 3, rfl, rfl, ?_, ?_⟩⟩
  · have : ui ∈ [(1 / 4 : ℝ), 1 / 2, 1 / 4] := List.mem_of_getElem? hu
    simp only [List.mem_cons, List.not_mem_nil, or_false] at this
    rcases this with h | h | h <;> rw [h] <;> norm_num
  · rw [hW]; exact WithBot.coe_ne_bot

end Verif.Mix
