import Verif.Model.VarFit
import Verif.Lemmas.Float
import Verif.Lemmas.Wp
import Verif.Lemmas.Gibbs
import Mathlib.LinearAlgebra.Matrix.NonsingularInverse

/-! # Facts about the variational algorithm -/

set_option linter.unusedSectionVars false

namespace Verif.Mix
open Verif.Fl
variable {K : Type} [Field K] [LinearOrder K] [IsStrictOrderedRing K]

/-- What is used of the special functions. -/
structure Sane (F : MathFun K) : Prop where
  exp_pos : ∀ x, 0 < F.exp x
  exp_lt : ∀ x y, x < y → F.exp x < F.exp y
  sqrt_pos : ∀ x, 0 < x → 0 < F.sqrt x

theorem Sane.exp_le_iff {F : MathFun K} (hF : Sane F) {x y : K} : F.exp x ≤ F.exp y ↔ x ≤ y := by
  constructor
  · intro h
    by_contra hc
    exact absurd h (not_le.2 (hF.exp_lt _ _ (not_le.1 hc)))
  · intro h
    rcases h.lt_or_eq with h | h
    · exact (hF.exp_lt _ _ h).le
    · rw [h]

variable {m : ℕ} {F : MathFun K}

theorem frob_pos (hF : Sane F) {P : Fin m → Fin m → K} (h : P ≠ 0) : 0 < frob F P := by
  apply hF.sqrt_pos
  obtain ⟨i, hi⟩ : ∃ i, P i ≠ 0 := by
    by_contra hc; push Not at hc; exact h (funext hc)
  obtain ⟨j, hj⟩ : ∃ j, P i j ≠ 0 := by
    by_contra hc; push Not at hc; exact hi (funext hc)
  refine Finset.sum_pos' (fun a _ => Finset.sum_nonneg (fun b _ => mul_self_nonneg _)) ⟨i, Finset.mem_univ _, ?_⟩
  exact Finset.sum_pos' (fun b _ => mul_self_nonneg _) ⟨j, Finset.mem_univ _, mul_self_pos.2 hj⟩

/-- `np.linalg.inv` returns the inverse matrix. -/
theorem matInv_mul {A P : Fin m → Fin m → K} (h : matInv A = .ok P) : Matrix.of P * Matrix.of A = 1 := by
  unfold matInv at h
  by_cases hd : (Matrix.of A).det = 0
  · rw [if_pos hd] at h; cases h
  · rw [if_neg hd] at h
    cases h
    have : Matrix.of (fun i j => (Matrix.of A).adjugate i j / (Matrix.of A).det) = ((Matrix.of A).det)⁻¹ • (Matrix.of A).adjugate := by
      ext i j
      simp only [Matrix.of_apply, Matrix.smul_apply, smul_eq_mul]
      rw [div_eq_mul_inv, mul_comm]
    rw [this, Matrix.smul_mul, Matrix.adjugate_mul, smul_smul, inv_mul_cancel₀ hd, one_smul]

theorem matInv_ne_zero (hm : 0 < m) {A P : Fin m → Fin m → K} (h : matInv A = .ok P) : P ≠ 0 := by
  intro h0
  have h1 := matInv_mul h
  rw [h0] at h1
  have h2 : (Matrix.of (0 : Fin m → Fin m → K)) = 0 := rfl
  rw [h2, Matrix.zero_mul] at h1
  have := congrFun (congrFun h1 ⟨0, hm⟩) ⟨0, hm⟩
  rw [Matrix.one_apply_eq] at this
  exact zero_ne_one this

namespace VM

/-! ### Columns -/

/-- A column of probabilities: `k` positive numbers with sum one. -/
def ProbColumn (k : ℕ) (col : List (Fl K)) : Prop := ∃ r : List K, col = r.map fin ∧ r.length = k ∧ (∀ x ∈ r, 0 < x) ∧ r.sum = 1

/-- `exp(x - c)`, zero for minus infinity. -/
def bexp (F : MathFun K) (c : K) : WithBot K → K
  | none => 0
  | some x => F.exp (x - c)

@[simp] theorem bexp_bot (c : K) : bexp F c ⊥ = 0 := rfl
@[simp] theorem bexp_coe (c x : K) : bexp F c (x : WithBot K) = F.exp (x - c) := rfl

theorem bexp_nonneg (hF : Sane F) (c : K) (x : WithBot K) : 0 ≤ bexp F c x := by
  induction x using WithBot.recBotCoe
  · exact le_rfl
  · exact (hF.exp_pos _).le

theorem bexp_lt_iff (hF : Sane F) (c : K) (x y : WithBot K) : bexp F c x < bexp F c y ↔ x < y := by
  induction x using WithBot.recBotCoe <;> induction y using WithBot.recBotCoe
  · simp
  · simp [hF.exp_pos]
  · simp [(hF.exp_pos _).le]
  · rename_i x y
    rw [bexp_coe, bexp_coe, WithBot.coe_lt_coe]
    constructor
    · intro h
      by_contra hc
      exact absurd h (not_lt.2 (hF.exp_le_iff.2 (sub_le_sub_right (not_lt.1 hc) c)))
    · intro h
      exact hF.exp_lt _ _ (sub_lt_sub_right h c)

/-- The numbers that come out of a column of scores after shifting by `c`, exponentiating, adding `eps` and normalising. -/
def soft (F : MathFun K) (eps c : K) (l : List (WithBot K)) : List K :=
  l.map (fun x => (bexp F c x + eps) / (l.map (fun x => bexp F c x + eps)).sum)

theorem exp_sub_add (eps c : K) (x : WithBot K) : Fl.exp F.exp (ofBot x - fin c) + fin eps = fin (bexp F c x + eps) := by
  induction x using WithBot.recBotCoe
  · rw [ofBot_bot, ninf_sub_fin, bexp_bot]; rfl
  · rw [ofBot_coe, fin_sub, bexp_coe]; rfl

variable {eps : K}

theorem soft_sum_pos (hF : Sane F) (he : 0 < eps) (c : K) {l : List (WithBot K)} (hl : l ≠ []) : 0 < (l.map (fun x => bexp F c x + eps)).sum := by
  obtain ⟨x, xs, rfl⟩ := List.exists_cons_of_ne_nil hl
  rw [List.map_cons, List.sum_cons]
  have h1 := bexp_nonneg hF c x
  have h2 : 0 ≤ (xs.map (fun x => bexp F c x + eps)).sum := by
    apply List.sum_nonneg
    intro y hy
    obtain ⟨z, _, rfl⟩ := List.mem_map.1 hy
    have := bexp_nonneg hF c z
    positivity
  positivity

theorem soft_eq (hF : Sane F) (he : 0 < eps) (c : K) (l : List (WithBot K)) :
    (((l.map ofBot).map (fun x => Fl.exp F.exp (x - fin c) + fin eps)).map
      (fun x => Fl.div x (Fl.sum ((l.map ofBot).map (fun x => Fl.exp F.exp (x - fin c) + fin eps))))) = (soft F eps c l).map fin := by
  have h1 : (l.map ofBot).map (fun x => Fl.exp F.exp (x - fin c) + fin eps) = (l.map (fun x => bexp F c x + eps)).map fin := by
    rw [List.map_map, List.map_map]
    exact List.map_congr_left (fun x _ => exp_sub_add eps c x)
  rw [h1, sum_fin, soft, List.map_map, List.map_map, List.map_map]
  apply List.map_congr_left
  intro x hx
  have hne : l ≠ [] := by rintro rfl; cases hx
  show Fl.div (fin _) (fin _) = fin _
  rw [Fl.div, if_neg (soft_sum_pos hF he c hne).ne']

theorem soft_length (c : K) (l : List (WithBot K)) : (soft F eps c l).length = l.length := by unfold soft; rw [List.length_map]

theorem soft_prob (hF : Sane F) (he : 0 < eps) (c : K) {l : List (WithBot K)} (hl : l ≠ []) : ProbColumn l.length ((soft F eps c l).map fin) := by
  have hS := soft_sum_pos hF he c hl
  refine ⟨_, rfl, soft_length c l, ?_, ?_⟩
  · intro x hx
    obtain ⟨y, _, rfl⟩ := List.mem_map.1 hx
    have := bexp_nonneg hF c y
    positivity
  · unfold soft
    have : ∀ (l : List (WithBot K)) (S : K), (l.map (fun x => (bexp F c x + eps) / S)).sum = (l.map (fun x => bexp F c x + eps)).sum / S := by
      intro l S
      induction l with
      | nil => simp
      | cons x l ih => rw [List.map_cons, List.sum_cons, ih, List.map_cons, List.sum_cons]; ring
    rw [this, div_self hS.ne']

theorem le_foldl_max (l : List (WithBot K)) (a : WithBot K) : a ≤ l.foldl Max.max a ∧ ∀ x ∈ l, x ≤ l.foldl Max.max a := by
  induction l generalizing a with
  | nil => exact ⟨le_rfl, fun x hx => by cases hx⟩
  | cons y l ih =>
    rw [List.foldl_cons]
    obtain ⟨h1, h2⟩ := ih (Max.max a y)
    refine ⟨(le_max_left _ _).trans h1, ?_⟩
    intro x hx
    rcases List.mem_cons.1 hx with rfl | hx
    · exact (le_max_right _ _).trans h1
    · exact h2 x hx

/-- The largest score is a number as soon as one of them is. -/
theorem foldl_max_coe {l : List (WithBot K)} {x : K} (h : (x : WithBot K) ∈ l) : ∃ c : K, l.foldl Max.max ⊥ = (c : WithBot K) := by
  have h1 := (le_foldl_max l ⊥).2 _ h
  cases hm : l.foldl Max.max ⊥ using WithBot.recBotCoe with
  | bot => rw [hm] at h1; exact absurd h1 (by simp)
  | coe c => exact ⟨c, rfl⟩

/-- Normalisation after subtracting the maximum. -/
theorem normMax_eq (hF : Sane F) (he : 0 < eps) {l : List (WithBot K)} {x : K} (h : (x : WithBot K) ∈ l) :
    ∃ c : K, l.foldl Max.max ⊥ = (c : WithBot K) ∧ normMax F eps (l.map ofBot) = (soft F eps c l).map fin := by
  obtain ⟨c, hc⟩ := foldl_max_coe h
  refine ⟨c, hc, ?_⟩
  unfold normMax
  rw [maximum_ofBot, hc]
  exact soft_eq hF he c l

theorem normMax_prob (hF : Sane F) (he : 0 < eps) {l : List (WithBot K)} {x : K} (h : (x : WithBot K) ∈ l) :
    ProbColumn l.length (normMax F eps (l.map ofBot)) := by
  obtain ⟨c, _, h1⟩ := normMax_eq hF he h
  rw [h1]
  exact soft_prob hF he c (by rintro rfl; cases h)

/-- A nan score makes the whole column nan. -/
theorem normMax_nan {col : List (Fl K)} (h : Fl.nan ∈ col) : normMax F eps col = List.replicate col.length Fl.nan := by
  unfold normMax
  rw [maximum_nan h]
  apply List.eq_replicate_iff.2
  refine ⟨by simp, ?_⟩
  intro b hb
  simp only [List.map_map, List.mem_map, Function.comp_apply] at hb
  obtain ⟨x, _, rfl⟩ := hb
  rw [sub_nan]
  rfl

/-! ### Scores -/

/-- The score of a group, as a number. -/
def numScore (F : MathFun K) (x : Fin m → K) (a : VAtom K m) : K :=
  1 / 2 * (F.log (frob F a.prec) + ((m : K) * F.log 2 + ((List.range m).map (fun i : ℕ => F.digamma ((a.scale - (i : ℕ)) / 2))).sum))
    + (-((m : K) * F.log (2 * F.pi) / 2) - (m : K) / a.lam / 2 - a.scale * quad a.prec x a.mu / 2)

theorem eLogNormWishart_fin (hF : Sane F) {a : VAtom K m} (h : a.prec ≠ 0) : eLogNormWishart F a.prec a.scale
    = fin (F.log (frob F a.prec) + ((m : K) * F.log 2 + ((List.range m).map (fun i : ℕ => F.digamma ((a.scale - (i : ℕ)) / 2))).sum)) := by
  have hp := frob_pos hF h
  unfold eLogNormWishart
  rw [Fl.log, if_neg (not_lt.2 hp.le), if_neg hp.ne', fin_add]

theorem atomScore_fin (hF : Sane F) (x : Fin m → K) {a : VAtom K m} (h : a.prec ≠ 0) : atomScore F x (some a) = fin (numScore F x a) := by
  simp only [atomScore]
  rw [eLogNormWishart_fin hF h]
  rfl

variable {C : WeightClass K} {V : VarClass C} {Atom : Type}

theorem logWeights_ok {c : C.State} {v : V.State} {f : ℕ → WithBot K} : ∀ {js : List ℕ}, (∀ j ∈ js, V.meanLogW c v j = .ok (ofBot (f j))) →
    logWeights V c v js = .ok ((js.map f).map ofBot)
  | [], _ => rfl
  | j :: js, h => by
    unfold logWeights
    rw [h j (by simp), logWeights_ok (fun i hi => h i (by simp [hi]))]
    rfl

/-- A weight class gives usable log weights after each fit to a matrix of numbers; `I` is kept by its methods. -/
def Regular (V : VarClass C) (I : C.State → Prop) : Prop :=
  ∀ (c : C.State) (q : List (List K)) (c' : C.State) (v : V.State), I c → q ≠ [] → V.fit c (q.map (fun r => r.map fin)) = .ok (c', v) →
    I c' ∧ ∃ f : ℕ → WithBot K, (∀ j < q.length, V.meanLogW c' v j = .ok (ofBot (f j))) ∧ ∃ x : K, f 0 = (x : WithBot K)

/-- The state of the weights is what a `fit_variational` call with `k` rows of numbers left. -/
def FittedBy (V : VarClass C) (I : C.State → Prop) (k : ℕ) (c : C.State) (v : V.State) : Prop :=
  ∃ (c0 : C.State) (q : List (List K)), I c0 ∧ q.length = k ∧ V.fit c0 (q.map (fun r => r.map fin)) = .ok (c, v)

/-- The object has `k` usable groups and usable weights. -/
structure Ready (I : C.State → Prop) (k : ℕ) (s : VM V m Atom) : Prop where
  varK : s.varK = some (k : ℤ)
  pos : 0 < k
  theta : s.varTheta.length = k
  atoms : ∀ a ∈ s.varTheta, ∃ b : VAtom K m, a = some b ∧ b.prec ≠ 0
  inv : I s.gm.wst.1 ∧ FittedBy V I k s.gm.wst.1 s.vst
  weights : ∃ f : ℕ → WithBot K, (∀ j < k, V.meanLogW s.gm.wst.1 s.vst j = .ok (ofBot (f j))) ∧ ∃ x : K, f 0 = (x : WithBot K)

/-- The atoms part. -/
def AtomsOk (k : ℕ) (as : List (Option (VAtom K m))) : Prop := as.length = k ∧ ∀ a ∈ as, ∃ b : VAtom K m, a = some b ∧ b.prec ≠ 0

theorem zip_scores (hF : Sane F) (x : Fin m → K) : ∀ (l : List (WithBot K)) (as : List (Option (VAtom K m))), l.length = as.length →
    (∀ a ∈ as, ∃ b : VAtom K m, a = some b ∧ b.prec ≠ 0) → ∃ l' : List (WithBot K), l'.length = l.length ∧
      List.zipWith (fun l a => l + atomScore F x a) (l.map ofBot) as = l'.map ofBot ∧ ∀ y : K, l.head? = some (y : WithBot K) → ∃ z : K, (z : WithBot K) ∈ l'
  | [], [], _, _ => ⟨[], rfl, rfl, fun y h => by cases h⟩
  | [], _ :: _, h, _ => by cases h
  | _ :: _, [], h, _ => by cases h
  | w :: l, a :: as, h, hb => by
    obtain ⟨b, rfl, hb'⟩ := hb a List.mem_cons_self
    obtain ⟨l', h1, h2, _⟩ := zip_scores hF x l as (by simpa using h) (fun a ha => hb a (by simp [ha]))
    refine ⟨(w + ((numScore F x b : K) : WithBot K)) :: l', by simp [h1], ?_, ?_⟩
    · rw [List.map_cons, List.zipWith_cons_cons, h2, atomScore_fin hF x hb', List.map_cons, ← ofBot_coe, ofBot_add]
    · intro y hy
      rw [List.head?_cons] at hy
      cases hy
      exact ⟨y + numScore F x b, by rw [WithBot.coe_add]; exact List.mem_cons_self⟩

/-- The column of an observation is a column of probabilities. -/
theorem column_prob (hF : Sane F) (he : 0 < eps) {I : C.State → Prop} {k : ℕ} {s : VM V m Atom} (h : Ready I k s) :
    ∃ lw, logWeights V s.gm.wst.1 s.vst (List.range s.varTheta.length) = .ok lw ∧
      ∀ x, ProbColumn k (normMax F eps (scoreColumn F k lw s.varTheta x)) := by
  obtain ⟨f, hf, x0, hx0⟩ := h.weights
  refine ⟨_, logWeights_ok (f := f) (fun j hj => hf j ?_), ?_⟩
  · rw [h.theta] at hj; exact List.mem_range.1 hj
  · intro x
    obtain ⟨l', h1, h2, h3⟩ := zip_scores hF x ((List.range s.varTheta.length).map f) s.varTheta (by simp) h.atoms
    unfold scoreColumn
    rw [h2, h.theta, Nat.sub_self, List.replicate_zero, List.append_nil]
    obtain ⟨z, hz⟩ := h3 x0 (by
      rw [h.theta]
      obtain ⟨k', hk⟩ := Nat.exists_eq_succ_of_ne_zero h.pos.ne'
      rw [hk, List.range_succ_eq_map, List.map_cons, List.head?_cons, hx0])
    have := normMax_prob hF he hz
    rw [h1, List.length_map, List.length_range, h.theta] at this
    exact this

/-! ### Rows and atoms -/

theorem rows_of_columns {k : ℕ} {s : VM V m Atom} (hk : s.varK = some (k : ℤ)) (h : ∀ c ∈ s.varD, ProbColumn k c) :
    ∃ q : List (List K), varRows s = q.map (fun r => r.map fin) ∧ q.length = k ∧ ∀ r ∈ q, r.length = s.varD.length ∧ ∀ x ∈ r, 0 < x := by
  have hcol : ∀ c ∈ s.varD, ∀ j < k, ∃ x : K, (c[j]?).getD .nan = fin x ∧ 0 < x := by
    intro c hc j hj
    obtain ⟨r, rfl, hl, hp, _⟩ := h c hc
    have hj' : j < r.length := by omega
    refine ⟨r[j], ?_, hp _ (List.getElem_mem _)⟩
    rw [List.getElem?_map, List.getElem?_eq_getElem hj']
    rfl
  refine ⟨(List.range k).map (fun j => s.varD.map (fun c => match (c[j]?).getD .nan with | .fin x => x | _ => 0)), ?_, by simp, ?_⟩
  · unfold varRows
    rw [hk]
    simp only [Option.getD_some, Int.toNat_natCast, List.map_map]
    apply List.map_congr_left
    intro j hj
    simp only [Function.comp_apply, List.map_map]
    apply List.map_congr_left
    intro c hc
    obtain ⟨x, hx, _⟩ := hcol c hc j (List.mem_range.1 hj)
    simp only [Function.comp_apply]
    rw [hx]
  · intro r hr
    obtain ⟨j, hj, rfl⟩ := List.mem_map.1 hr
    refine ⟨by simp, ?_⟩
    intro x hx
    obtain ⟨c, hc, rfl⟩ := List.mem_map.1 hx
    obtain ⟨x, hx, hp⟩ := hcol c hc j (List.mem_range.1 hj)
    rw [hx]; exact hp

theorem varAtom_ok (hm : 0 < m) {ys : List (Fin m → K)} {p : NIW K m} {r : List K} (hr : 0 < r.sum) {a : Option (VAtom K m)}
    (h : varAtom ys p (r.map fin) = .ok a) : ∃ b : VAtom K m, a = some b ∧ b.prec ≠ 0 := by
  unfold varAtom at h
  rw [numbers_fin] at h
  simp only [if_neg hr.ne'] at h
  cases hP : matInv (varPsi ys p r) with
  | error e => rw [hP] at h; cases h
  | ok P =>
    rw [hP] at h
    cases h
    exact ⟨_, rfl, matInv_ne_zero hm hP⟩

theorem varAtoms_ok (hm : 0 < m) {ys : List (Fin m → K)} {p : NIW K m} : ∀ {q : List (List K)}, (∀ r ∈ q, 0 < r.sum) → ∀ {as : List (Option (VAtom K m))},
    varAtoms ys p (q.map (fun r => r.map fin)) = .ok as → AtomsOk q.length as
  | [], _, as, h => by cases h; exact ⟨rfl, fun a ha => by cases ha⟩
  | r :: q, hq, as, h => by
    rw [List.map_cons, varAtoms] at h
    cases h1 : varAtom ys p (r.map fin) with
    | error e => rw [h1] at h; cases h
    | ok a =>
      cases h2 : varAtoms ys p (q.map (fun r => r.map fin)) with
      | error e => rw [h1, h2] at h; cases h
      | ok as' =>
        rw [h1, h2] at h
        cases h
        obtain ⟨h3, h4⟩ := varAtoms_ok hm (fun r hr => hq r (by simp [hr])) h2
        refine ⟨by simp [h3], ?_⟩
        intro a' ha'
        rcases List.mem_cons.1 ha' with rfl | ha'
        · exact varAtom_ok hm (hq r (by simp)) h1
        · exact h4 a' ha'

theorem sum_pos_of_pos {r : List K} (hne : r ≠ []) (h : ∀ x ∈ r, 0 < x) : 0 < r.sum := by
  obtain ⟨x, xs, rfl⟩ := List.exists_cons_of_ne_nil hne
  rw [List.sum_cons]
  have h1 := h x (by simp)
  have h2 : 0 ≤ xs.sum := List.sum_nonneg (fun y hy => (h y (by simp [hy])).le)
  positivity

/-! ### The three updates -/

variable {ω : Oracle K} {W : World K m Atom} {I : C.State → Prop}

/-- The responsibilities of `n` observations are columns of probabilities. -/
def Probs (k : ℕ) (s : VM V m Atom) : Prop := s.varD.length = s.gm.y.length ∧ ∀ c ∈ s.varD, ProbColumn k c

theorem updateVarD_ready (hF : Sane F) (he : 0 < W.eps) {k : ℕ} {s : VM V m Atom × ℕ} (h : Ready I k s.1) :
    wp ω (updateVarD F W) (fun _ t => Ready I k t.1 ∧ Probs k t.1 ∧ t.1.gm = s.1.gm) (fun _ t => t.1.gm = s.1.gm) s := by
  obtain ⟨lw, h1, h2⟩ := column_prob (eps := W.eps) hF he h
  unfold updateVarD
  rw [wp_bind, wp_self, h.varK]
  simp only []
  rw [if_neg (by omega), wp_bind, wp_lift]
  refine ⟨?_, fun _ _ => by trivial⟩
  intro lw' hlw
  rw [h1] at hlw
  cases hlw
  rw [if_neg (by rw [h.theta]; simp), wp_assign]
  refine ⟨⟨h.varK, h.pos, h.theta, h.atoms, h.inv, h.weights⟩, ⟨by simp, ?_⟩, rfl⟩
  intro c hc
  obtain ⟨x, _, rfl⟩ := List.mem_map.1 hc
  simpa using h2 x

theorem updateVarW_ready (hV : Regular V I) {k : ℕ} (hk : 0 < k) {s : VM V m Atom × ℕ} (hK : s.1.varK = some (k : ℤ))
    (hI : I s.1.gm.wst.1) (hp : Probs k s.1) :
    wp ω updateVarW (fun _ t => ((I t.1.gm.wst.1 ∧ FittedBy V I k t.1.gm.wst.1 t.1.vst) ∧ ∃ f : ℕ → WithBot K, (∀ j < k, V.meanLogW t.1.gm.wst.1 t.1.vst j = .ok (ofBot (f j))) ∧
        ∃ x : K, f 0 = (x : WithBot K)) ∧ t.1.varK = s.1.varK ∧ t.1.varTheta = s.1.varTheta ∧ t.1.varD = s.1.varD ∧ t.1.gm.y = s.1.gm.y)
      (fun _ t => t.1.gm.y = s.1.gm.y) s := by
  obtain ⟨q, hq, hl, _⟩ := rows_of_columns hK hp.2
  unfold updateVarW fitWeights
  simp only [wp_bind, wp_self, wp_lift, wp_assign]
  refine ⟨?_, fun _ _ => by trivial⟩
  intro r hr
  rw [hq] at hr
  have := hV _ q r.1 r.2 hI (by rintro rfl; simp at hl; omega) hr
  rw [hl] at this
  exact ⟨⟨⟨this.1, _, q, hI, hl, hr⟩, this.2⟩, by trivial, by trivial, by trivial, by trivial⟩

theorem updateVarTheta_ready (hm : 0 < m) {k : ℕ} {s : VM V m Atom × ℕ} (hK : s.1.varK = some (k : ℤ)) (hy : s.1.gm.y ≠ []) (hp : Probs k s.1) :
    wp ω updateVarTheta (fun _ t => AtomsOk k t.1.varTheta ∧ t.1.varK = s.1.varK ∧ t.1.varD = s.1.varD ∧ t.1.gm = s.1.gm ∧ t.1.vst = s.1.vst)
      (fun _ t => t.1.gm = s.1.gm) s := by
  obtain ⟨q, hq, hl, hpos⟩ := rows_of_columns hK hp.2
  unfold updateVarTheta
  simp only [wp_bind, wp_self, wp_lift, wp_assign]
  refine ⟨?_, fun _ _ => by trivial⟩
  intro as has
  rw [hq] at has
  have := varAtoms_ok hm (fun r hr => sum_pos_of_pos (by
    intro h0
    have := (hpos r hr).1
    rw [h0, hp.1] at this
    exact hy (List.length_eq_zero_iff.1 this.symm)) (hpos r hr).2) has
  rw [hl] at this
  exact ⟨this, by trivial, by trivial, by trivial, by trivial⟩

/-- One iteration keeps the object usable. -/
theorem maximize_ready (hF : Sane F) (he : 0 < W.eps) (hV : Regular V I) (hm : 0 < m) {k : ℕ} {s : VM V m Atom × ℕ} (h : Ready I k s.1) (hy : s.1.gm.y ≠ []) :
    wp ω (maximize F W) (fun _ t => Ready I k t.1 ∧ Probs k t.1 ∧ t.1.gm.y = s.1.gm.y) (fun _ _ => True) s := by
  unfold maximize
  rw [wp_bind]
  refine wp_mono (updateVarD_ready hF he h) ?_ (fun _ _ _ => trivial)
  rintro _ t ⟨hr, hp, hg⟩
  rw [wp_bind]
  refine wp_mono (updateVarW_ready hV h.pos hr.varK hr.inv.1 hp) ?_ (fun _ _ _ => trivial)
  rintro _ t2 ⟨hw, hk, ht, hd, hy2⟩
  have hp2 : Probs k t2.1 := by
    unfold Probs at hp ⊢
    rw [hd, hy2]; exact hp
  have hyy : t2.1.gm.y = s.1.gm.y := by rw [hy2, hg]
  refine wp_mono (updateVarTheta_ready hm (hk.trans hr.varK) (by rw [hyy]; exact hy) hp2) ?_ (fun _ _ _ => trivial)
  rintro _ t3 ⟨ha, hk3, hd3, hg3, hv3⟩
  refine ⟨⟨hk3.trans (hk.trans hr.varK), h.pos, ha.1, ha.2, ?_, ?_⟩, ?_, ?_⟩
  · rw [hg3, hv3]; exact hw.1
  · rw [hg3, hv3]; exact hw.2
  · unfold Probs at hp2 ⊢
    rw [hd3, hg3]; exact hp2
  · rw [hg3]; exact hyy
end VM
end Verif.Mix
