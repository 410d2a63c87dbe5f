import Verif.Lemmas.GibbsKernel

/-! # A Gibbs step of a stick-breaking mixture, for given draws -/

namespace Verif.Mix
open MeasureTheory ProbabilityTheory GM Spec
open scoped ENNReal

/-! ### The number of rounds of the loop of `tail` -/

section
variable {C0 : WeightCore ℝ} {ω : Oracle ℝ}

/-- More rounds do not change a result. -/
theorem tailLoop_more {x : ℝ} {r : List ℝ} : ∀ (f : ℕ) {s s' : C0.State × ℕ}, BaseWeight.tailLoop C0 x f ω s = (.ok r, s') → ∀ f', f ≤ f' → BaseWeight.tailLoop C0 x f' ω s = (.ok r, s')
  | 0, s, s', h, f', _ => by
    unfold BaseWeight.tailLoop at h
    rw [M.bind_apply] at h
    simp only [M.self] at h
    by_cases hs : (C0.getW s.1).sum < x
    · simp [hs, M.raise] at h
    · simp only [hs, if_false, M.pure_apply] at h
      cases f' <;> (unfold BaseWeight.tailLoop; rw [M.bind_apply]; simp only [M.self, hs, if_false, M.pure_apply]; exact h)
  | f + 1, s, s', h, 0, hf => absurd hf (by omega)
  | f + 1, s, s', h, f' + 1, hf => by
    unfold BaseWeight.tailLoop at h ⊢
    rw [M.bind_apply] at h ⊢
    simp only [M.self] at h ⊢
    by_cases hs : (C0.getW s.1).sum < x
    · simp only [hs, if_true] at h ⊢
      rw [M.bind_apply] at h ⊢
      cases hc : C0.complete (.int ((C0.getW s.1).length + 1)) ω s with
      | mk r1 s1 =>
        rw [hc] at h
        cases r1 with
        | error e => simp at h
        | ok _ => exact tailLoop_more f h f' (by omega)
    · simp only [hs, if_false, M.pure_apply] at h ⊢
      exact h

theorem tail_more {x : ℝ} {r : List ℝ} {f : ℕ} {s s' : C0.State × ℕ} (h : BaseWeight.tail C0 f x ω s = (.ok r, s')) {f' : ℕ} (hf : f ≤ f') : BaseWeight.tail C0 f' x ω s = (.ok r, s') := by
  unfold BaseWeight.tail at h ⊢
  by_cases hx : x ≥ 1 ∨ x < 0
  · simp [hx, M.raise] at h
  · simp only [hx, if_false] at h ⊢
    rw [M.bind_apply] at h ⊢
    simp only [M.self] at h ⊢
    by_cases hl : (C0.getW s.1).length = 0
    · simp only [hl, if_true] at h ⊢
      rw [M.bind_apply] at h ⊢
      cases hc : C0.random (.int 1) ω s with
      | mk r1 s1 =>
        rw [hc] at h
        cases r1 with
        | error e => simp at h
        | ok _ => exact tailLoop_more f h f' hf
    · simp only [hl, if_false] at h ⊢
      exact tailLoop_more f h f' hf

variable {m : ℕ} {Atom : Type}

theorem sliceTail_more {W : World ℝ m Atom} {d : List ℕ} {w : List ℝ} {f f' : ℕ} (hf : f ≤ f') {s s' : GM C0.inheritTail m Atom × ℕ}
    (h : sliceTail { W with fuel := f } d w ω s = (.ok (), s')) : sliceTail { W with fuel := f' } d w ω s = (.ok (), s') := by
  unfold sliceTail at h ⊢
  rw [M.bind_apply] at h ⊢
  cases hg : Py.gather w (labels d) with
  | error e => rw [hg] at h; simp [M.lift] at h
  | ok ws =>
    rw [hg, M.lift_ok] at h
    rw [M.lift_ok]
    simp only at h ⊢
    rw [M.bind_apply] at h ⊢
    simp only [drawSlices] at h ⊢
    rw [M.bind_apply, M.assign_apply] at h ⊢
    simp only at h ⊢
    rw [M.bind_apply] at h ⊢
    cases hm : minK (ws.mapIdx fun i x => W.unif (s.2 + i) W.eps (x + W.eps)) with
    | error e => rw [hm] at h; simp [M.lift] at h
    | ok u =>
      rw [hm, M.lift_ok] at h
      rw [M.lift_ok]
      simp only at h ⊢
      rw [M.bind_apply] at h ⊢
      simp only [callW] at h ⊢
      cases hc : (C0.inheritTail).tail f (1 - u) ω s.1.wst with
      | mk r1 s1 =>
        cases r1 with
        | error e => rw [hc] at h; simp at h
        | ok r =>
          have := tail_more (C0 := C0) hc hf
          have e : (C0.inheritTail).tail f' (1 - u) ω s.1.wst = (.ok r, s1) := this
          rw [e]
          rw [hc] at h
          exact h

/-- More rounds do not change the result of a step. -/
theorem gibbsStep_more {W : World ℝ m Atom} {f f' : ℕ} (hf : f ≤ f') {s s' : GM C0.inheritTail m Atom × ℕ}
    (h : gibbsStep { W with fuel := f } ω s = (.ok (), s')) : gibbsStep { W with fuel := f' } ω s = (.ok (), s') := by
  rw [gibbsStep_eq, M.bind_apply] at h ⊢
  simp only [M.self] at h ⊢
  rw [M.bind_apply] at h ⊢
  have hu : updateAtoms (C := C0.inheritTail) { W with fuel := f' } (npUnique s.1.d) = updateAtoms { W with fuel := f } (npUnique s.1.d) := updateAtoms_congr (by rfl) _
  rw [hu]
  cases ha : updateAtoms { W with fuel := f } (npUnique s.1.d) ω s with
  | mk r1 s1 =>
    rw [ha] at h
    cases r1 with
    | error e => simp at h
    | ok _ =>
      simp only at h ⊢
      rw [M.bind_apply] at h ⊢
      simp only [M.self] at h ⊢
      rw [M.bind_apply] at h ⊢
      cases hb : callW (BaseWeight.fit (C0.inheritTail).toWeightCore (labels s1.1.d)) ω s1 with
      | mk r2 s2 =>
        rw [hb] at h
        cases r2 with
        | error e => simp at h
        | ok _ =>
          simp only at h ⊢
          rw [M.bind_apply] at h ⊢
          cases hr : callW ((C0.inheritTail).random .none) ω s2 with
          | mk r3 s3 =>
            rw [hr] at h
            cases r3 with
            | error e => simp at h
            | ok w =>
              simp only at h ⊢
              unfold assignStep at h ⊢
              rw [M.bind_apply] at h ⊢
              cases hs : sliceTail { W with fuel := f } s1.1.d w ω s3 with
              | mk r4 s4 =>
                rw [hs] at h
                cases r4 with
                | error e => simp at h
                | ok _ =>
                  rw [sliceTail_more hf hs]
                  simp only at h ⊢
                  have hd : ∀ js, (getAtoms { W with fuel := f } js : M ℝ (GM C0.inheritTail m Atom) _) = getAtoms { W with fuel := f' } js := by
                    intro js
                    induction js with
                    | nil => rfl
                    | cons j js ih => rw [getAtoms, getAtoms, ih]; rfl
                  unfold updateD at h ⊢
                  simp only [hd] at h
                  exact h

/-- The loop stops at the first number of weights with a large enough total. -/
theorem tailLoop_to {w : ℕ → ℝ} {st : ℕ → C0.State × ℕ} {k0 K : ℕ} (hg : Grows C0 ω w st k0) {x : ℝ} (hx : x < 1) (hlt : ∀ i, k0 ≤ i → i < K → ∑ j ∈ Finset.range i, w j < x)
    (hK : x ≤ ∑ j ∈ Finset.range K, w j) : ∀ (fuel k : ℕ), k0 ≤ k → k ≤ K → C0.getW (st k).1 = (List.range k).map w → K ≤ k + fuel →
      BaseWeight.tailLoop C0 x fuel ω (st k) = (.ok ((List.range K).map w), st K) := by
  have stop : ∀ fuel k, k = K → C0.getW (st k).1 = (List.range k).map w → BaseWeight.tailLoop C0 x fuel ω (st k) = (.ok ((List.range K).map w), st K) := by
    intro fuel k e hk
    subst e
    have : ¬ ((List.range k).map w).sum < x := not_lt.2 hK
    cases fuel <;> (unfold BaseWeight.tailLoop; rw [M.bind_apply]; simp only [M.self, hk, this, if_false, M.pure_apply])
  intro fuel
  induction fuel with
  | zero => exact fun k h1 h2 h3 h4 => stop 0 k (by omega) h3
  | succ fuel ih =>
    intro k h1 h2 h3 h4
    rcases h2.eq_or_lt with h | h
    · exact stop _ k h h3
    · have hs := hlt k h1 h
      have hs' : ((List.range k).map w).sum < x := hs
      obtain ⟨⟨r, hr⟩, hk'⟩ := hg.2 k h1 (hs.trans hx)
      unfold BaseWeight.tailLoop
      rw [M.bind_apply]
      simp only [M.self, h3, hs', if_true, List.length_map, List.length_range]
      rw [M.bind_apply, hr]
      exact ih (k + 1) (by omega) (by omega) hk' (by omega)

end

/-! ### Atoms drawn on demand -/

/-- The stream position after the components below `j`, when those with `miss` take one draw each. -/
def missPos (miss : ℕ → Bool) (p : ℕ) : ℕ → ℕ
  | 0 => p
  | j + 1 => missPos miss p j + (if miss j then 1 else 0)

theorem missPos_mono (miss : ℕ → Bool) (p : ℕ) {i j : ℕ} (h : i ≤ j) : missPos miss p i ≤ missPos miss p j := by
  induction j with
  | zero => rw [Nat.le_zero.1 h]
  | succ j ih =>
    rcases h.eq_or_lt with rfl | h
    · exact le_rfl
    · exact (ih (by omega)).trans (by rw [missPos]; omega)

theorem missPos_lt (miss : ℕ → Bool) (p : ℕ) {i j : ℕ} (hi : miss i = true) (h : i < j) : missPos miss p i < missPos miss p j := by
  have := missPos_mono miss p (show i + 1 ≤ j by omega)
  rw [missPos, if_pos hi] at this
  omega

section
variable {C : WeightClass ℝ} {m : ℕ} {Atom : Type} {ω : Oracle ℝ}

/-- Reading the atoms `a, a + 1, ...`: a missing one is drawn from the prior and stored. -/
theorem getAtoms_lazy {W : World ℝ m Atom} {miss : ℕ → Bool} {p : ℕ} {θ : ℕ → Atom} : ∀ (b a : ℕ) (s : GM C m Atom × ℕ), s.1.thetaDefault = true → s.2 = missPos miss p a →
    (∀ j, a ≤ j → s.1.theta.lookup j = if miss j then none else some (θ j)) → (∀ j, a ≤ j → miss j = true → θ j = W.atom (missPos miss p j) (prior s.1)) →
    ∃ th, getAtoms W (List.range' a b) ω s = (.ok ((List.range' a b).map θ), ({ s.1 with theta := th }, missPos miss p (a + b))) ∧
      ∀ j, th.lookup j = if a ≤ j ∧ j < a + b then some (θ j) else s.1.theta.lookup j
  | 0, a, s, _, hp, _, _ => ⟨s.1.theta, by simp only [List.range'_zero, List.map_nil, getAtoms, M.pure_apply, add_zero, ← hp], fun j => by rw [if_neg (by omega)]⟩
  | b + 1, a, s, hd, hp, hl, hθ => by
    have h1 : ∃ th1, getAtom W a ω s = (.ok (θ a), ({ s.1 with theta := th1 }, missPos miss p (a + 1))) ∧ ∀ j, th1.lookup j = if j = a then some (θ a) else s.1.theta.lookup j := by
      have ha := hl a le_rfl
      by_cases hm : miss a = true
      · refine ⟨setAtom s.1.theta a (θ a), ?_, fun j => lookup_setAtom _ _ _ _⟩
        rw [if_pos hm] at ha
        unfold getAtom
        rw [M.bind_apply]
        simp only [M.self, ha]
        rw [if_pos hd, M.bind_apply, draw1]
        simp only
        rw [M.bind_apply, M.assign_apply]
        simp only [M.pure_apply, hp, ← hθ a le_rfl hm, missPos, if_pos hm]
      · refine ⟨s.1.theta, ?_, fun j => ?_⟩
        · rw [if_neg hm] at ha
          unfold getAtom
          rw [M.bind_apply]
          simp only [M.self, ha, M.pure_apply, missPos, if_neg hm, add_zero, ← hp]
        · split
          · rename_i h
            rw [h, ha, if_neg hm]
          · rfl
    obtain ⟨th1, h1, h1l⟩ := h1
    obtain ⟨th, h2, h2l⟩ := getAtoms_lazy (θ := θ) b (a + 1) ({ s.1 with theta := th1 }, missPos miss p (a + 1)) hd rfl
      (fun j hj => by
        show th1.lookup j = _
        rw [h1l, if_neg (by omega), hl j (by omega)])
      (fun j hj hm => hθ j (by omega) hm)
    refine ⟨th, ?_, fun j => ?_⟩
    · rw [List.range'_succ, getAtoms, M.bind_apply, h1]
      simp only
      rw [M.bind_apply, h2]
      simp only [M.pure_apply, List.map_cons]
      rw [show a + 1 + b = a + (b + 1) by omega]
    · rw [h2l j]
      show (if a + 1 ≤ j ∧ j < a + 1 + b then some (θ j) else th1.lookup j) = _
      rw [h1l]
      by_cases h : j = a
      · subst h
        rw [if_neg (by omega), if_pos rfl, if_pos (by omega)]
      · rw [if_neg h]
        by_cases h' : a + 1 ≤ j ∧ j < a + 1 + b
        · rw [if_pos h', if_pos (by omega)]
        · rw [if_neg h', if_neg (by omega)]

end

/-! ### The step -/

/-- The number of weights that `random()` draws for the labels `d`. -/
def topLabel (d : List ℕ) : ℕ := d.foldr max 0 + 1

theorem lt_topLabel {d : List ℕ} {j : ℕ} (h : j ∈ d) : j < topLabel d := by
  unfold topLabel
  induction d with
  | nil => simp at h
  | cons a d ih =>
    rw [List.foldr_cons]
    rcases List.mem_cons.1 h with rfl | h
    · have := le_max_left j (d.foldr max 0)
      omega
    · have := ih h
      have := le_max_right a (d.foldr max 0)
      omega

theorem topLabel_mem {d : List ℕ} (h : d ≠ []) : topLabel d - 1 ∈ d := by
  unfold topLabel
  rw [Nat.add_sub_cancel]
  induction d with
  | nil => exact absurd rfl h
  | cons a d ih =>
    rw [List.foldr_cons]
    by_cases hd : d = []
    · subst hd; simp
    · rcases max_choice a (d.foldr max 0) with e | e <;> rw [e]
      · simp
      · exact List.mem_cons_of_mem _ (ih hd)

/-- The parameters of the beta laws of the sticks. -/
structure StickParams where
  a : ℕ → ℝ
  b : ℕ → ℝ
  ha : ∀ j, 0 < a j
  hb : ∀ j, 0 < b j

/-- The sticks that the generator gives for the labels `d`: beta variables with prior parameters `f` and the label counts; beyond the labels they have the prior law. -/
noncomputable def stickDraw (f : StickParams) (d : List ℕ) (ω : Oracle ℝ) (pos j : ℕ) : ℝ := ω.beta (pos + j) (f.a j + nEq (labels d) j) (f.b j + nGt (labels d) j)

/-- A stick-breaking class: for labels `d`, `random()` draws the sticks up to the largest label from their posterior law, and `complete` draws the next ones. -/
structure StickClass (C0 : WeightCore ℝ) (f : StickParams) (getV : C0.State → List ℝ) (Inv : C0.State → Prop) : Prop where
  run : ∀ (ω : Oracle ℝ) (t : C0.State × ℕ) (d : List ℕ), d ≠ [] → Inv t.1 → ∃ st : ℕ → C0.State × ℕ,
    C0.random .none ω (C0.setD (labels d) t.1, t.2) = (.ok ((List.range (topLabel d)).map (stickSeq (stickDraw f d ω t.2))), st (topLabel d)) ∧
      Grows C0 ω (stickSeq (stickDraw f d ω t.2)) st (topLabel d) ∧ ∀ k, topLabel d ≤ k → getV (st k).1 = (List.range k).map (stickDraw f d ω t.2) ∧ Inv (st k).1

variable {m n : ℕ} {Atom : Type} [MeasurableSpace Atom] {C0 : WeightCore ℝ}

/-- The state of a mixture: the data, the labels, the parameters of the prior of the atoms, an atom dict that draws missing atoms, and a weight object satisfying `Inv`. -/
def StickHolds (y : Fin n → Fin m → ℝ) (p : NIW ℝ m) (Inv : C0.State → Prop) (s : GM C0.inheritTail m Atom) (d : Fin n → ℕ) : Prop :=
  s.y = List.ofFn y ∧ s.d = List.ofFn d ∧ s.thetaDefault = true ∧ prior s = p ∧ Inv s.wst.1

/-- The components without an atom after the redraw. -/
def missing (d : Fin n → ℕ) (th : List (ℕ × Atom)) (j : ℕ) : Bool := decide (j ∉ List.ofFn d) && (th.lookup j).isNone

/-- The atoms that the step uses: redrawn for the occupied components, kept if present, drawn from the prior otherwise. -/
noncomputable def lazyAtoms (A : AtomGen m Atom) (y : Fin n → Fin m → ℝ) (p : NIW ℝ m) (d : Fin n → ℕ) (th : List (ℕ × Atom)) (pos : ℕ) (X : ℕ → A.Seed) (j : ℕ) : Atom :=
  if j ∈ List.ofFn d then A.draw (posteriorNIW (rowsWith (List.ofFn y) (List.ofFn d) j) p) (X (pos + labelRank (List.ofFn d) j))
  else match th.lookup j with
    | some a => a
    | none => A.draw p (X (missPos (missing d th) (pos + (npUnique (List.ofFn d)).length + n) j))

/-- The weights below `k` cover all slice levels. -/
def Covers (w : ℕ → ℝ) (d : Fin n → ℕ) (U : ℕ → ℝ) (q k : ℕ) : Prop := ∀ i, 1 - ∑ j ∈ Finset.range k, w j ≤ w (d i) * U (q + i)

variable {f : StickParams} {getV : C0.State → List ℝ} {Inv : C0.State → Prop} {W : World ℝ m Atom} {A : AtomGen m Atom} {y : Fin n → Fin m → ℝ} {p : NIW ℝ m} {d : Fin n → ℕ}
  {s : GM C0.inheritTail m Atom × ℕ} {ω : Oracle ℝ}

/-- The part of a step before the slice variables. -/
theorem stick_front (hc : StickClass C0 f getV Inv) (hn : 0 < n) (h : StickHolds y p Inv s.1 d) (X : ℕ → A.Seed) :
    ∃ (th : List (ℕ × Atom)) (st : ℕ → C0.State × ℕ), (∀ j, th.lookup j = if missing d s.1.theta j then none else some (lazyAtoms A y p d s.1.theta s.2 X j)) ∧
      Grows C0 ω (stickSeq (stickDraw f (List.ofFn d) ω s.1.wst.2)) st (topLabel (List.ofFn d)) ∧
      (∀ k, topLabel (List.ofFn d) ≤ k → getV (st k).1 = (List.range k).map (stickDraw f (List.ofFn d) ω s.1.wst.2) ∧ Inv (st k).1) ∧
      ∀ (fuel : (ℕ → ℝ) → ℕ) (U g : ℕ → ℝ), gibbsStep (withNoise (withSlices (withAtoms W A X) fuel U) g) ω s =
        assignStep (withNoise (withSlices (withAtoms W A X) fuel U) g) (List.ofFn d) ((List.range (topLabel (List.ofFn d))).map (stickSeq (stickDraw f (List.ofFn d) ω s.1.wst.2))) ω
          ({ s.1 with theta := th, wst := st (topLabel (List.ofFn d)) }, s.2 + (npUnique (List.ofFn d)).length) := by
  obtain ⟨hy, hd, hθ, hp, hI⟩ := h
  have hl : s.1.y.length = s.1.d.length := by rw [hy, hd]; simp
  have hne : List.ofFn d ≠ [] := by
    intro hc
    have := congrArg List.length hc
    simp at this
    omega
  obtain ⟨th, h1, h2⟩ := updateAtoms_run (ω := ω) (withAtoms W A X) (npUnique s.1.d) (npUnique_nodup _) s hl
  obtain ⟨st, h3, h4, h5⟩ := hc.run ω s.1.wst (List.ofFn d) hne hI
  refine ⟨th, st, fun j => ?_, h4, h5, fun fuel U g => ?_⟩
  · rw [h2 j]
    unfold lazyAtoms missing
    rw [hd]
    by_cases hj : j ∈ List.ofFn d
    · rw [if_pos (mem_npUnique.2 hj), if_pos hj, labelRank_eq hj, hy, hp]
      simp only [hj, not_true, decide_false, Bool.false_and, Bool.false_eq_true, if_false]
      rfl
    · rw [if_neg (fun h => hj (mem_npUnique.1 h)), if_neg hj]
      cases hlk : s.1.theta.lookup j with
      | none => simp [hj]
      | some a => simp
  · have hcg : updateAtoms (C := C0.inheritTail) (withNoise (withSlices (withAtoms W A X) fuel U) g) (npUnique s.1.d) = updateAtoms (withAtoms W A X) (npUnique s.1.d) :=
      updateAtoms_congr (by rfl) _
    rw [gibbsStep_eq, M.bind_apply]
    simp only [M.self]
    rw [M.bind_apply, hcg, h1]
    simp only
    rw [M.bind_apply]
    simp only [M.self]
    rw [M.bind_apply, callW]
    have hfit : BaseWeight.fit (C0.inheritTail).toWeightCore (labels s.1.d) ω s.1.wst = (.ok (), (C0.setD (labels s.1.d) s.1.wst.1, s.1.wst.2)) := rfl
    simp only [hfit]
    rw [M.bind_apply, callW]
    have hr : (C0.inheritTail).random .none ω (C0.setD (labels s.1.d) s.1.wst.1, s.1.wst.2) =
        (.ok ((List.range (topLabel (List.ofFn d))).map (stickSeq (stickDraw f (List.ofFn d) ω s.1.wst.2))), st (topLabel (List.ofFn d))) := by rw [hd]; exact h3
    erw [hr]
    simp only
    rw [← hd]

omit [MeasurableSpace Atom] in
/-- The slice part of a step. -/
theorem stick_slice {w : ℕ → ℝ} {st : ℕ → C0.State × ℕ} {N T F : ℕ} {q : ℕ} {U : ℕ → ℝ} (heps : W.eps = 0) (hn : 0 < n) (hg : Grows C0 ω w st N) (hdN : ∀ i, d i < N) (hw1 : ∀ j, w j ≤ 1)
    (hpos : ∀ i, 0 < w (d i)) (hU : ∀ p, 0 < U p ∧ U p < 1) (hNT : N ≤ T) (hT : Covers w d U q T) (hlt : ∀ i, N ≤ i → i < T → ¬ Covers w d U q i) (hF : T ≤ F) {fuel : (ℕ → ℝ) → ℕ}
    (hfuel : fuel U = F) (s : GM C0.inheritTail m Atom × ℕ) (hs2 : s.2 = q) (hwst : s.1.wst = st N) :
    sliceTail (withSlices W fuel U) (List.ofFn d) ((List.range N).map w) ω s =
      (.ok (), ({ s.1 with u := slices w d q U, wst := st T }, q + n)) := by
  subst hs2
  have hw0 : ∀ i, ((List.range N).map w)[d i]? = some (w (d i)) := fun i => by
    rw [List.getElem?_map, List.getElem?_range (hdN i)]; rfl
  have hgat := gather_map (w := (List.range N).map w) (ws := w) (d := List.ofFn d) (by simpa [List.mem_ofFn] using hw0)
  have hus : ((List.ofFn d).map w).mapIdx (fun i x => (withSlices W fuel U).unif (s.2 + i) (withSlices W fuel U).eps (x + (withSlices W fuel U).eps)) = slices w d s.2 U := by
    have : (withSlices W fuel U).eps = 0 := heps
    simp only [this]
    unfold slices
    congr 1
    funext i x
    simp [withSlices]
  have hget : ∀ i : Fin n, w (d i) * U (s.2 + i) ∈ slices w d s.2 U := fun i => by
    refine List.mem_iff_getElem.2 ⟨i, by simp [slices], by simp [slices]⟩
  have hmem : ∀ u ∈ slices w d s.2 U, ∃ i : Fin n, u = w (d i) * U (s.2 + i) := by
    intro u hu
    obtain ⟨i, hi, rfl⟩ := List.mem_iff_getElem.1 hu
    have hi' : i < n := by simpa [slices] using hi
    exact ⟨⟨i, hi'⟩, by simp [slices]⟩
  obtain ⟨u, hu, humin, hule⟩ := minK_mem (l := slices w d s.2 U) (fun hc => by have := hget ⟨0, hn⟩; rw [hc] at this; simp at this)
  obtain ⟨i0, hi0⟩ := hmem u hu
  have hu0 : 0 < u := by rw [hi0]; exact mul_pos (hpos _) (hU _).1
  have hu1 : u ≤ 1 := by
    rw [hi0]
    calc w (d i0) * U (s.2 + i0) ≤ 1 * 1 := mul_le_mul (hw1 _) (hU _).2.le (hU _).1.le zero_le_one
      _ = 1 := one_mul 1
  have hcov : ∀ k, Covers w d U s.2 k ↔ 1 - u ≤ ∑ j ∈ Finset.range k, w j := by
    intro k
    constructor
    · intro h
      have := h i0
      rw [← hi0] at this
      linarith
    · intro h i
      have := hule _ (hget i)
      linarith
  have hl := tailLoop_to hg (x := 1 - u) (by linarith) (fun i h1 h2 => by have := hlt i h1 h2; rw [hcov] at this; exact not_le.1 this) ((hcov T).1 hT) F N le_rfl hNT hg.1 (by omega)
  have hN0 : 0 < N := lt_of_le_of_lt (Nat.zero_le _) (hdN ⟨0, hn⟩)
  have htail : BaseWeight.tail C0 F (1 - u) ω (st N) = (.ok ((List.range T).map w), st T) := by
    unfold BaseWeight.tail
    rw [if_neg (by rintro (h | h) <;> linarith), M.bind_apply]
    have hlen : (C0.getW (st N).1).length ≠ 0 := by rw [hg.1]; simp; omega
    simp only [M.self, hlen, if_false]
    exact hl
  unfold sliceTail
  rw [M.bind_apply, hgat, M.lift_ok]
  simp only
  rw [M.bind_apply, drawSlices, hus]
  simp only
  rw [M.bind_apply, M.assign_apply]
  simp only
  rw [M.bind_apply, humin, M.lift_ok]
  simp only
  rw [M.bind_apply, callW]
  have : ((WeightCore.inheritTail C0).tail (withSlices W fuel U).fuel (1 - u)) ω s.1.wst = (.ok ((List.range T).map w), st T) := by
    rw [hwst]
    show BaseWeight.tail C0 (fuel U) _ _ _ = _
    rw [hfuel]
    exact htail
  simp only [this]
  simp

theorem stickSeq_nonneg {v : ℕ → ℝ} (hv : ∀ j, 0 ≤ v j ∧ v j ≤ 1) (j : ℕ) : 0 ≤ stickSeq v j :=
  mul_nonneg (hv j).1 (Finset.prod_nonneg fun l _ => by linarith [(hv l).2])

theorem stickSeq_le_one {v : ℕ → ℝ} (hv : ∀ j, 0 ≤ v j ∧ v j ≤ 1) (j : ℕ) : stickSeq v j ≤ 1 :=
  mul_le_one₀ (hv j).2 (Finset.prod_nonneg fun l _ => by linarith [(hv l).2]) (Finset.prod_le_one (fun l _ => by linarith [(hv l).2]) fun l _ => by linarith [(hv l).1])

theorem sum_stickSeq (v : ℕ → ℝ) (k : ℕ) : ∑ j ∈ Finset.range k, stickSeq v j = 1 - ∏ l ∈ Finset.range k, (1 - v l) := by
  induction k with
  | zero => simp
  | succ k ih => rw [Finset.sum_range_succ, Finset.prod_range_succ, ih, stickSeq]; ring

/-- Later weights are below the slice levels. -/
theorem covers_above {v : ℕ → ℝ} (hv : ∀ j, 0 ≤ v j ∧ v j ≤ 1) {U : ℕ → ℝ} {q T j : ℕ} (hT : Covers (stickSeq v) d U q T) (hj : T ≤ j) (i : Fin n) : stickSeq v j ≤ stickSeq v (d i) * U (q + i) := by
  refine le_trans ?_ (hT i)
  have h1 : ∑ k ∈ Finset.range T, stickSeq v k ≤ ∑ k ∈ Finset.range j, stickSeq v k := Finset.sum_le_sum_of_subset_of_nonneg (Finset.range_mono hj) fun k _ _ => stickSeq_nonneg hv k
  have h2 := sum_stickSeq v (j + 1)
  rw [Finset.sum_range_succ] at h2
  have h3 : 0 ≤ ∏ l ∈ Finset.range (j + 1), (1 - v l) := Finset.prod_nonneg fun l _ => by linarith [(hv l).2]
  linarith

variable {nz : ℝ → ℝ}

/-- **A step**, for given atoms, sticks and slice variables: it returns, and only the labels depend on the noise. -/
theorem stick_run_weights (hnz : IsGumbel nz) (hc : StickClass C0 f getV Inv) (heps : W.eps = 0) (hn : 2 ≤ n) (h : StickHolds y p Inv s.1 d) (X : ℕ → A.Seed) {v : ℕ → ℝ}
    (hv' : v = stickDraw f (List.ofFn d) ω s.1.wst.2) (hv : ∀ j, 0 ≤ v j ∧ v j ≤ 1) (hpos : ∀ i, 0 < stickSeq v (d i)) {θ : ℕ → Atom} (hθ : θ = lazyAtoms A y p d s.1.theta s.2 X)
    (hden : ∀ i, W.logpdf (y i) (θ (d i)) ≠ ⊥) {U : ℕ → ℝ} (hU : ∀ p, 0 < U p ∧ U p < 1) {q : ℕ} (hq : q = s.2 + (npUnique (List.ofFn d)).length) {T : ℕ} (hNT : topLabel (List.ofFn d) ≤ T)
    (hT : Covers (stickSeq v) d U q T) (hlt : ∀ i, topLabel (List.ofFn d) ≤ i → i < T → ¬ Covers (stickSeq v) d U q i) :
    ∃ R : (ℕ → ℝ) → GM C0.inheritTail m Atom × ℕ, (∀ F, T ≤ F → ∀ g, gibbsStep (withNoise (withSlices (withAtoms W A X) (fun _ => F) U) g) ω s = (.ok (), R g)) ∧
      (∀ g, ∃ δ : Fin n → ℕ, StickHolds y p Inv (R g).1 δ) ∧
      (∀ g j, (R g).1.theta.lookup j = if j < T ∨ missing d s.1.theta j = false then some (θ j) else none) ∧ (∀ g, getV (R g).1.wst.1 = (List.range T).map v) ∧ (∀ g, C0.getW (R g).1.wst.1 = (List.range T).map (stickSeq v)) ∧
      ∀ δ : Fin n → ℕ, streamLaw {g | (R (fun k => nz (g k))).1.d = List.ofFn δ} =
        ∏ i, sliceKernel (stickSeq v) (dens W.logpdf θ (y i)) (stickSeq v (d i) * U (q + i)) (δ i) := by
  have hn0 : 0 < n := by omega
  obtain ⟨th, st, hth, hg, hst, hstep⟩ := stick_front (W := W) (A := A) (ω := ω) hc hn0 h X
  rw [← hv'] at hg hst hstep
  rw [← hθ] at hth
  rw [← hq] at hstep
  have hdN : ∀ i, d i < topLabel (List.ofFn d) := fun i => lt_topLabel ((List.mem_ofFn' _ _).2 ⟨i, rfl⟩)
  set N := topLabel (List.ofFn d) with hN
  set w := stickSeq v with hw
  set S2 : GM C0.inheritTail m Atom × ℕ := ({ s.1 with theta := th, wst := st N }, q) with hS2
  set S1 : GM C0.inheritTail m Atom × ℕ := ({ s.1 with theta := th, u := slices w d q U, wst := st T }, q + n) with hS1
  have hsl : ∀ F, T ≤ F → sliceTail (withSlices (withAtoms W A X) (fun _ => F) U) (List.ofFn d) ((List.range N).map w) ω S2 = (.ok (), S1) := fun F hF =>
    stick_slice (W := withAtoms W A X) (q := q) heps hn0 hg hdN (fun j => stickSeq_le_one hv j) hpos hU hNT hT hlt hF rfl S2 rfl rfl
  -- the atoms
  obtain ⟨th2, ha, hal⟩ := getAtoms_lazy (C := C0.inheritTail) (W := withAtoms W A X) (ω := ω) (miss := missing d s.1.theta) (p := q + n) (θ := θ) T 0 S1 h.2.2.1 rfl (fun j _ => hth j) (fun j _ hm => by
    have hm1 : j ∉ List.ofFn d := by
      unfold missing at hm
      simp only [Bool.and_eq_true, decide_eq_true_eq] at hm
      exact hm.1
    have hm2 : s.1.theta.lookup j = none := by
      unfold missing at hm
      simp only [Bool.and_eq_true, Option.isNone_iff_eq_none] at hm
      exact hm.2
    have hpr : prior S1.1 = p := h.2.2.2.1
    rw [hpr, hθ]
    unfold lazyAtoms
    rw [if_neg hm1, hm2, ← hq]
    rfl)
  rw [← List.range_eq_range'] at ha
  have hgw : (C0.inheritTail).getW S1.1.wst.1 = (List.range T).map w := by
    show C0.getW (st T).1 = _
    rcases hNT.eq_or_lt with he | hl
    · rw [← he]; exact hg.1
    · have hT1 : N ≤ T - 1 := by omega
      have hlt1 : ∑ j ∈ Finset.range (T - 1), w j < 1 := by
        by_contra hcon
        refine hlt (T - 1) hT1 (by omega) fun i => ?_
        have := mul_pos (hpos i) (hU (q + i)).1
        linarith
      have := (hg.2 (T - 1) hT1 hlt1).2
      rwa [Nat.sub_add_cancel (by omega)] at this
  have hcomp : Completes (withAtoms W A X) ω w θ S1 := by
    refine ⟨T, _, hgw, ha, fun j hj u hu => ?_⟩
    have hu' : u ∈ slices w d q U := hu
    obtain ⟨i, hi, rfl⟩ := List.mem_iff_getElem.1 hu'
    have hi' : i < n := by simpa [slices] using hi
    have := covers_above hv hT hj ⟨i, hi'⟩
    simpa [slices] using this
  have hT0 : 0 < T := by
    have := hdN ⟨0, hn0⟩
    omega
  have hT0' : ((List.range T).map w).length = T := by simp
  have hyl : S1.1.y.length = n := by
    show s.1.y.length = n
    rw [h.1]; simp
  have hul : S1.1.u.length = S1.1.y.length := by
    rw [hyl]
    show (slices w d q U).length = n
    simp [slices]
  -- the labels
  have hlab : ∀ g : ℕ → ℝ, ∃ δ : Fin n → ℕ, gumbelMaxSampling (List.zipWith (column (withAtoms W A X) ((List.range T).map w) ((List.range T).map θ)) S1.1.y S1.1.u)
      ((List.range S1.1.y.length).map (noise (withNoise (withAtoms W A X) g) (missPos (missing d s.1.theta) (q + n) (0 + T)) T S1.1.y.length)) = .ok (List.ofFn δ) := by
    intro g
    obtain ⟨is, h1, h2, -⟩ := C64_matrix (K := ℝ) (cols := List.zipWith (column (withAtoms W A X) ((List.range T).map w) ((List.range T).map θ)) S1.1.y S1.1.u)
      (noise := (List.range S1.1.y.length).map (noise (withNoise (withAtoms W A X) g) (missPos (missing d s.1.theta) (q + n) (0 + T)) T S1.1.y.length)) (by simp [hul])
      (fun i c g' hc hg' => by
        have hcl : c.length = T := by
          rw [List.getElem?_zipWith] at hc
          cases e1 : S1.1.y[i]? with
          | none => simp [e1] at hc
          | some x =>
            cases e2 : S1.1.u[i]? with
            | none => simp [e1, e2] at hc
            | some u =>
              simp only [e1, e2, Option.some.injEq] at hc
              rw [← hc]
              simp [column]
        have hgl : g'.length = T := by
          rw [List.getElem?_map] at hg'
          cases e1 : (List.range S1.1.y.length)[i]? with
          | none => simp [e1] at hg'
          | some x =>
            simp only [e1, Option.map_some, Option.some.injEq] at hg'
            rw [← hg']
            simp [noise]
        exact ⟨fun hc0 => by rw [hc0] at hcl; simp at hcl; omega, by rw [hcl, hgl]⟩)
    have hil : is.length = n := by
      rw [h2, List.length_zipWith, hul, hyl, min_self]
    subst hil
    exact ⟨fun i => is[i], by rw [h1]; congr 1; apply List.ext_getElem <;> simp⟩
  choose δ hδ using hlab
  have hup : ∀ F g, updateD (withNoise (withSlices (withAtoms W A X) (fun _ => F) U) g) ω S1 =
      (.ok (), ({ S1.1 with theta := th2, d := List.ofFn (δ g) }, missPos (missing d s.1.theta) (q + n) (0 + T) + T * n)) := by
    intro F g
    have hA : GM.getAtoms (withSlices (withAtoms W A X) (fun _ => F) U) (List.range ((C0.inheritTail).getW S1.1.wst.1).length) ω S1 = (.ok ((List.range T).map θ), ({ S1.1 with theta := th2 }, missPos (missing d s.1.theta) (q + n) (0 + T))) := by
      rw [getAtoms_withSlices, hgw, hT0']
      exact ha
    rw [updateD_eq hA (by rw [hgw]; intro hc; rw [hc] at hT0'; simp at hT0'; omega) (by rw [hyl]; omega) hul g]
    have hcol : column (withSlices (withAtoms W A X) (fun _ => F) U) = column (withAtoms W A X) := rfl
    have hns : noise (withNoise (withSlices (withAtoms W A X) (fun _ => F) U) g) = noise (withNoise (withAtoms W A X) g) := rfl
    rw [hcol, hns, hgw, hT0']
    simp only
    rw [hδ g]
    simp only [hyl]
  have hfull : ∀ F, T ≤ F → ∀ g, assignStep (withNoise (withSlices (withAtoms W A X) (fun _ => F) U) g) (List.ofFn d) ((List.range N).map w) ω S2 =
      (.ok (), ({ S1.1 with theta := th2, d := List.ofFn (δ g) }, missPos (missing d s.1.theta) (q + n) (0 + T) + T * n)) := by
    intro F hF g
    have hsn : sliceTail (C := C0.inheritTail) (withNoise (withSlices (withAtoms W A X) (fun _ => F) U) g) (List.ofFn d) ((List.range N).map w) =
        sliceTail (withSlices (withAtoms W A X) (fun _ => F) U) (List.ofFn d) ((List.range N).map w) := rfl
    unfold assignStep
    rw [M.bind_apply, hsn, hsl F hF]
    exact hup F g
  refine ⟨fun g => ({ S1.1 with theta := th2, d := List.ofFn (δ g) }, missPos (missing d s.1.theta) (q + n) (0 + T) + T * n), fun F hF g => ?_, fun g => ⟨δ g, h.1, rfl, h.2.2.1, h.2.2.2.1, (hst T hNT).2⟩,
    fun g j => ?_, fun g => (hst T hNT).1, fun g => hgw, fun δ' => ?_⟩
  · rw [hstep, hfull F hF g]
  · show th2.lookup j = _
    rw [hal j]
    show (if 0 ≤ j ∧ j < 0 + T then some (θ j) else th.lookup j) = _
    rw [hth j]
    by_cases hjT : j < T
    · rw [if_pos (by omega), if_pos (.inl hjT)]
    · rw [if_neg (by omega)]
      cases hm : missing d s.1.theta j with
      | true => simp [hjT]
      | false => simp
  · have hS2y : S2.1.y = List.ofFn y := h.1
    have hS2l : S2.1.y.length = n := by rw [hS2y]; simp
    have hyi : ∀ i : Fin n, S2.1.y[i]'(by rw [hS2l]; exact i.2) = y i := fun i => by simp [hS2y]
    have key := step_law (C := C0.inheritTail) (ω := ω) hnz (W := withAtoms W A X) heps (w := w) (θ := θ) (w0 := (List.range N).map w) (s := S2) (s1 := S1) (fuel := fun _ => T) (U := U) (n := n) hS2l hn hU
      (d := d) (d' := δ') (fun i => by rw [List.getElem?_map, List.getElem?_range (hdN i)]; rfl) hpos (fun i => by rw [hyi]; exact hden i) (hsl T le_rfl) hcomp
    simp only [hfull T le_rfl, true_and, hyi] at key
    exact key

/-- The step without the stored weights. -/
theorem stick_run (hnz : IsGumbel nz) (hc : StickClass C0 f getV Inv) (heps : W.eps = 0) (hn : 2 ≤ n) (h : StickHolds y p Inv s.1 d) (X : ℕ → A.Seed) {v : ℕ → ℝ}
    (hv' : v = stickDraw f (List.ofFn d) ω s.1.wst.2) (hv : ∀ j, 0 ≤ v j ∧ v j ≤ 1) (hpos : ∀ i, 0 < stickSeq v (d i)) {θ : ℕ → Atom} (hθ : θ = lazyAtoms A y p d s.1.theta s.2 X)
    (hden : ∀ i, W.logpdf (y i) (θ (d i)) ≠ ⊥) {U : ℕ → ℝ} (hU : ∀ p, 0 < U p ∧ U p < 1) {q : ℕ} (hq : q = s.2 + (npUnique (List.ofFn d)).length) {T : ℕ} (hNT : topLabel (List.ofFn d) ≤ T)
    (hT : Covers (stickSeq v) d U q T) (hlt : ∀ i, topLabel (List.ofFn d) ≤ i → i < T → ¬ Covers (stickSeq v) d U q i) :
    ∃ R : (ℕ → ℝ) → GM C0.inheritTail m Atom × ℕ, (∀ F, T ≤ F → ∀ g, gibbsStep (withNoise (withSlices (withAtoms W A X) (fun _ => F) U) g) ω s = (.ok (), R g)) ∧
      (∀ g, ∃ δ : Fin n → ℕ, StickHolds y p Inv (R g).1 δ) ∧
      (∀ g j, (R g).1.theta.lookup j = if j < T ∨ missing d s.1.theta j = false then some (θ j) else none) ∧ (∀ g, getV (R g).1.wst.1 = (List.range T).map v) ∧
      ∀ δ : Fin n → ℕ, streamLaw {g | (R (fun k => nz (g k))).1.d = List.ofFn δ} =
        ∏ i, sliceKernel (stickSeq v) (dens W.logpdf θ (y i)) (stickSeq v (d i) * U (q + i)) (δ i) := by
  obtain ⟨R, h1, h2, h3, h4, -, h5⟩ := stick_run_weights hnz hc heps hn h X hv' hv hpos hθ hden hU hq hNT hT hlt
  exact ⟨R, h1, h2, h3, h4, h5⟩

end Verif.Mix
