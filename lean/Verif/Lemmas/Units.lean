import Verif.Lemmas.MirrorVar
import Verif.Lemmas.FlMonoid
import Mathlib.Algebra.BigOperators.Field

/-! # The variational algorithm on data in other units -/

set_option linter.unusedSectionVars false

namespace Verif

/-! ### Adding a constant to numbers with special values -/

namespace Fl
variable {K : Type} [Field K] [LinearOrder K] [IsStrictOrderedRing K]

/-- `x + d` for a number `d`. -/
def plus (d : K) (x : Fl K) : Fl K := x + .fin d

theorem plus_fin (d x : K) : plus d (fin x) = fin (x + d) := rfl
theorem plus_nan (d : K) : plus d (nan : Fl K) = nan := rfl
theorem plus_ninf (d : K) : plus d (ninf : Fl K) = ninf := rfl
theorem plus_pinf (d : K) : plus d (pinf : Fl K) = pinf := rfl

theorem plus_zero (x : Fl K) : plus 0 x = x := by cases x <;> simp [plus_fin, plus_nan, plus_ninf, plus_pinf]

theorem plus_plus (a b : K) (x : Fl K) : plus a (plus b x) = plus (b + a) x := by
  cases x <;> simp [plus_fin, plus_nan, plus_ninf, plus_pinf, add_assoc]

theorem plus_add (d : K) (x y : Fl K) : plus d x + y = plus d (x + y) := by
  show add (add x (fin d)) y = add (add x y) (fin d)
  rw [add_assoc', add_comm' (fin d), ← add_assoc']

theorem add_plus (d : K) (x y : Fl K) : x + plus d y = plus d (x + y) := by
  show add x (add y (fin d)) = add (add x y) (fin d)
  rw [add_assoc']

theorem neg_plus (d : K) (x : Fl K) : neg (plus d x) = plus (-d) (neg x) := by
  cases x <;> simp [plus_fin, plus_nan, plus_ninf, plus_pinf, neg, add_comm]

theorem plus_sub (d : K) (x y : Fl K) : plus d x - y = plus d (x - y) := plus_add d x (neg y)

theorem sub_plus (d : K) (x y : Fl K) : x - plus d y = plus (-d) (x - y) := by
  show add x (neg (plus d y)) = _
  rw [neg_plus]
  exact add_plus (-d) x (neg y)

theorem plus_sub_plus (d : K) (x y : Fl K) : plus d x - plus d y = x - y := by
  rw [plus_sub, sub_plus, plus_plus, neg_add_cancel, plus_zero]

theorem scale_plus (a d : K) (x : Fl K) : scale a (plus d x) = plus (a * d) (scale a x) := by
  cases x with
  | fin x => simp [plus_fin, scale, mul_add]
  | nan => rfl
  | ninf => simp only [plus_ninf, scale]; split <;> [rfl; (split <;> rfl)]
  | pinf => simp only [plus_pinf, scale]; split <;> [rfl; (split <;> rfl)]

theorem sum_plus {α : Type} (d : K) (f : α → Fl K) (l : List α) : sum (l.map fun x => plus d (f x)) = plus ((l.length : K) * d) (sum (l.map f)) := by
  induction l with
  | nil => simp [sum, plus_fin]
  | cons x l ih =>
    rw [List.map_cons, List.map_cons, sum_cons', sum_cons', ih]
    show plus d (f x) + plus _ _ = plus _ (f x + _)
    rw [plus_add, add_plus, plus_plus, List.length_cons]
    congr 1
    push_cast
    ring

theorem lt_plus (d : K) (x y : Fl K) : lt (plus d x) (plus d y) = lt x y := by
  cases x <;> cases y <;> simp [plus_fin, plus_nan, plus_ninf, plus_pinf, lt]

theorem max_plus (d : K) (x y : Fl K) : max (plus d x) (plus d y) = plus d (max x y) := by
  have h := lt_plus d x y
  cases x with
  | nan => cases y <;> rfl
  | ninf => cases y <;> rfl
  | pinf => cases y <;> rfl
  | fin x =>
    cases y with
    | fin y =>
      show (if lt (plus d (fin x)) (plus d (fin y)) then plus d (fin y) else plus d (fin x)) = plus d (if lt (fin x) (fin y) then fin y else fin x)
      rw [h]
      split <;> rfl
    | _ => rfl

theorem maximum_plus (d : K) (l : List (Fl K)) : maximum (l.map (plus d)) = plus d (maximum l) := by
  unfold maximum
  have : ∀ (l : List (Fl K)) (a : Fl K), (l.map (plus d)).foldl max (plus d a) = plus d (l.foldl max a) := by
    intro l
    induction l with
    | nil => intro a; rfl
    | cons x l ih => intro a; rw [List.map_cons, List.foldl_cons, List.foldl_cons, max_plus, ih]
  exact this l ninf
end Fl

namespace Mix
open scoped Matrix
variable {K : Type} [Field K] [LinearOrder K] [IsStrictOrderedRing K] {C : WeightClass K} {V : VarClass C} {m : ℕ} {Atom : Type} {ω : Oracle K}

namespace Affine
variable (g : Affine K m)

/-- The linear part multiplies all squared distances by `ρ`. -/
structure Similar (ρ : K) : Prop where
  pos : 0 < ρ
  orth : Matrix.of g.B * (Matrix.of g.B)ᵀ = ρ • (1 : Matrix (Fin m) (Fin m) K)
  ones : ∀ i j, (∑ k, g.B i k) * (∑ k, g.B j k) = ρ

/-- The image of a precision matrix. -/
def pconj (ρ : K) (P : Fin m → Fin m → K) (i j : Fin m) : K := g.conj P i j / ρ ^ 2

variable {g} {ρ : K}

theorem Similar.ne (h : g.Similar ρ) : ρ ≠ 0 := h.pos.ne'

theorem Similar.right (h : g.Similar ρ) : Matrix.of g.B * (ρ⁻¹ • (Matrix.of g.B)ᵀ) = 1 := by
  rw [Matrix.mul_smul, h.orth, smul_smul, inv_mul_cancel₀ h.ne, one_smul]

theorem Similar.left (h : g.Similar ρ) : (Matrix.of g.B)ᵀ * Matrix.of g.B = ρ • (1 : Matrix (Fin m) (Fin m) K) := by
  have := mul_eq_one_comm.1 h.right
  rw [Matrix.smul_mul] at this
  rw [← this, smul_smul, mul_inv_cancel₀ h.ne, one_smul]

theorem Similar.det (h : g.Similar ρ) : (Matrix.of g.B).det ≠ 0 := by
  have := congrArg Matrix.det h.right
  rw [Matrix.det_mul, Matrix.det_one] at this
  intro h0
  rw [h0, zero_mul] at this
  exact zero_ne_one this

theorem Similar.det_conj (h : g.Similar ρ) (P : Fin m → Fin m → K) : (Matrix.of (g.conj P)).det = 0 ↔ (Matrix.of P).det = 0 := by
  rw [of_conj, Matrix.det_mul, Matrix.det_mul, Matrix.det_transpose, mul_eq_zero, mul_eq_zero]
  have := h.det
  tauto

theorem Similar.matInv (h : g.Similar ρ) (P : Fin m → Fin m → K) : matInv (g.conj P) = (matInv P).map (g.pconj ρ) := by
  rw [matInv_eq, matInv_eq]
  by_cases h0 : (Matrix.of P).det = 0
  · rw [if_pos ((h.det_conj P).2 h0), if_pos h0]; rfl
  rw [if_neg (fun hc => h0 ((h.det_conj P).1 hc)), if_neg h0]
  refine congrArg Except.ok ?_
  have hi : (Matrix.of g.B)⁻¹ = ρ⁻¹ • (Matrix.of g.B)ᵀ := Matrix.inv_eq_right_inv h.right
  have hit : ((Matrix.of g.B)ᵀ)⁻¹ = ρ⁻¹ • Matrix.of g.B := Matrix.inv_eq_right_inv (by
    rw [Matrix.mul_smul, h.left, smul_smul, inv_mul_cancel₀ h.ne, one_smul])
  have : (Matrix.of (g.conj P))⁻¹ = (ρ⁻¹ * ρ⁻¹) • (Matrix.of g.B * (Matrix.of P)⁻¹ * (Matrix.of g.B)ᵀ) := by
    rw [of_conj, Matrix.mul_inv_rev, Matrix.mul_inv_rev, hi, hit, Matrix.mul_smul, Matrix.smul_mul, Matrix.mul_smul, smul_smul, Matrix.mul_assoc]
  funext i j
  rw [this, Matrix.smul_apply, smul_eq_mul]
  have e := congrFun (congrFun (of_conj (g := g) (fun i j => (Matrix.of P)⁻¹ i j)) i) j
  unfold pconj
  have e' : g.conj (fun i j => (Matrix.of P)⁻¹ i j) i j = (Matrix.of g.B * (Matrix.of P)⁻¹ * (Matrix.of g.B)ᵀ) i j := e
  rw [e', div_eq_inv_mul]
  have h0 := h.ne
  field_simp

theorem lin_dot_sim (h : g.Similar ρ) (x y : Fin m → K) : ∑ i, g.lin x i * g.lin y i = ρ * ∑ i, x i * y i := by
  have : ∑ i, g.lin x i * g.lin y i = (Matrix.of g.B).mulVec x ⬝ᵥ (Matrix.of g.B).mulVec y := by
    simp only [dotProduct, Matrix.mulVec, lin, Matrix.of_apply]
  rw [this, Matrix.dotProduct_mulVec, ← Matrix.vecMul_transpose, Matrix.vecMul_vecMul, h.left, Matrix.vecMul_smul, Matrix.vecMul_one, smul_dotProduct]
  rfl

theorem traceMul_sim (h : g.Similar ρ) (P Q : Fin m → Fin m → K) : VM.traceMul (g.conj P) (g.conj Q) = ρ ^ 2 * VM.traceMul P Q := by
  have e : ∀ P Q : Fin m → Fin m → K, VM.traceMul P Q = Matrix.trace (Matrix.of P * Matrix.of Q) := by
    intro P Q
    simp only [VM.traceMul, Matrix.trace, Matrix.diag_apply, Matrix.mul_apply, Matrix.of_apply]
  rw [e, e, of_conj, of_conj]
  have : Matrix.of g.B * Matrix.of P * (Matrix.of g.B)ᵀ * (Matrix.of g.B * Matrix.of Q * (Matrix.of g.B)ᵀ) =
      ρ • (Matrix.of g.B * (Matrix.of P * Matrix.of Q) * (Matrix.of g.B)ᵀ) := by
    have : Matrix.of g.B * Matrix.of P * (Matrix.of g.B)ᵀ * (Matrix.of g.B * Matrix.of Q * (Matrix.of g.B)ᵀ) =
        Matrix.of g.B * Matrix.of P * ((Matrix.of g.B)ᵀ * Matrix.of g.B) * (Matrix.of Q * (Matrix.of g.B)ᵀ) := by
      simp only [Matrix.mul_assoc]
    rw [this, h.left, Matrix.mul_smul, Matrix.mul_one, Matrix.smul_mul]
    simp only [Matrix.mul_assoc]
  rw [this, Matrix.trace_smul, Matrix.trace_mul_comm, ← Matrix.mul_assoc, h.left, Matrix.smul_mul, Matrix.one_mul, Matrix.trace_smul, smul_smul]
  rw [smul_eq_mul, pow_two]

theorem traceMul_pconj (h : g.Similar ρ) (P Q : Fin m → Fin m → K) : VM.traceMul (g.conj P) (g.pconj ρ Q) = VM.traceMul P Q := by
  have : VM.traceMul (g.conj P) (g.pconj ρ Q) = VM.traceMul (g.conj P) (g.conj Q) / ρ ^ 2 := by
    unfold VM.traceMul pconj
    rw [Finset.sum_div]
    refine Finset.sum_congr rfl fun i _ => ?_
    rw [Finset.sum_div]
    exact Finset.sum_congr rfl fun j _ => by rw [mul_div_assoc]
  rw [this, traceMul_sim h, mul_div_cancel_left₀ _ (pow_ne_zero 2 h.ne)]

theorem pconj_squares (h : g.Similar ρ) (P : Fin m → Fin m → K) :
    ∑ i, ∑ j, g.pconj ρ P i j * g.pconj ρ P i j = (∑ i, ∑ j, P i j * P i j) / ρ ^ 2 := by
  have e : VM.traceMul (g.conj P) (fun i j => g.conj P j i) = ρ ^ 2 * VM.traceMul P (fun i j => P j i) := by
    rw [← conj_transpose P]
    exact traceMul_sim h P _
  have e1 : ∑ i, ∑ j, g.pconj ρ P i j * g.pconj ρ P i j = VM.traceMul (g.conj P) (fun i j => g.conj P j i) / ρ ^ 4 := by
    unfold VM.traceMul pconj
    rw [Finset.sum_div]
    refine Finset.sum_congr rfl fun i _ => ?_
    rw [Finset.sum_div]
    refine Finset.sum_congr rfl fun j _ => ?_
    have := h.ne
    field_simp
  rw [e1, e]
  unfold VM.traceMul
  have := h.ne
  field_simp

theorem quad_pconj (h : g.Similar ρ) (P : Fin m → Fin m → K) (x mu : Fin m → K) : VM.quad (g.pconj ρ P) (g.pt x) (g.pt mu) = VM.quad P x mu := by
  have e : ∀ (z : Fin m → K) i, ∑ j, g.conj P i j * g.lin z j = ρ * g.lin (fun k => ∑ l, P k l * z l) i := by
    intro z i
    have e0 : ∀ (P : Fin m → Fin m → K) (x : Fin m → K) i, ∑ j, P i j * x j = (Matrix.of P).mulVec x i := fun _ _ _ => rfl
    have e1 : ∀ x, g.lin x = (Matrix.of g.B).mulVec x := fun _ => rfl
    have e2 : (fun k => ∑ l, P k l * z l) = (Matrix.of P).mulVec z := rfl
    rw [e2, e1, e1, e0, of_conj, Matrix.mulVec_mulVec, Matrix.mul_assoc, h.left, Matrix.mul_smul, Matrix.mul_one, Matrix.smul_mulVec, ← Matrix.mulVec_mulVec]
    rfl
  have e3 : ∀ (z : Fin m → K) i, ∑ j, g.pconj ρ P i j * g.lin z j = g.lin (fun k => ∑ l, P k l * z l) i / ρ := by
    intro z i
    have : ∑ j, g.pconj ρ P i j * g.lin z j = (∑ j, g.conj P i j * g.lin z j) / ρ ^ 2 := by
      unfold pconj
      rw [Finset.sum_div]
      exact Finset.sum_congr rfl fun j _ => by rw [div_mul_eq_mul_div]
    rw [this, e]
    have := h.ne
    field_simp
  unfold VM.quad
  simp only [lin_sub, e3]
  have : ∀ a b : Fin m → K, ∑ i, g.lin a i * (g.lin b i / ρ) = ∑ i, a i * b i := by
    intro a b
    have e4 : ∑ i, g.lin a i * (g.lin b i / ρ) = (∑ i, g.lin a i * g.lin b i) / ρ := by
      rw [Finset.sum_div]
      exact Finset.sum_congr rfl fun i _ => by rw [mul_div_assoc]
    rw [e4, lin_dot_sim h, mul_div_cancel_left₀ _ h.ne]
  exact this _ _

theorem conj_const_sim (h : g.Similar ρ) (a : K) (i j : Fin m) : g.conj (fun _ _ => a) i j = ρ * a := by
  have := conj_outer g (fun _ => a) (fun _ => 1) i j
  simp only [mul_one] at this
  rw [this]
  unfold lin
  simp only [mul_one]
  rw [← Finset.sum_mul, mul_right_comm, h.ones i j]

theorem varPsi_sim (h : g.Similar ρ) {ys : List (Fin m → K)} {r : List K} (hl : r.length = ys.length) (hr : r.sum ≠ 0) (q : NIW K m) :
    VM.varPsi (ys.map g.pt) (g.niw q) r = g.conj (VM.varPsi ys q r) := by
  funext i j
  unfold VM.varPsi
  rw [conj_add, conj_add, wMean_pt hl hr, wCov_pt hl hr]
  have := conj_const_sim h (q.lam * r.sum / (q.lam + r.sum) * ∑ k, (VM.wMean ys r k - q.mu k) * (VM.wMean ys r k - q.mu k)) i j
  rw [this]
  simp only [niw, lin_sub]
  rw [lin_dot_sim h]
  ring
end Affine

/-- The square root and the logarithm of a multiple. -/
structure Scales (F : MathFun K) (ρ δ : K) : Prop where
  sqrt : ∀ x, F.sqrt (x / ρ ^ 2) = F.sqrt x / ρ
  log : ∀ x, 0 < x → F.log (x / ρ) = F.log x - δ

/-- The parameters of a group in the other units. -/
def VAtom.resize (g : Affine K m) (ρ : K) (a : VAtom K m) : VAtom K m := { mu := g.pt a.mu, lam := a.lam, prec := g.pconj ρ a.prec, scale := a.scale }

namespace VM
open Fl (plus plus_plus plus_zero plus_add add_plus plus_sub sub_plus plus_sub_plus scale_plus sum_plus neg_plus maximum_plus)
variable {g : Affine K m} {ρ δ : K} {A : Atom → Atom} {W W' : World K m Atom} {F : MathFun K}

/-- The object in the other units. -/
def resize (g : Affine K m) (ρ : K) (A : Atom → Atom) (s : VM V m Atom) : VM V m Atom :=
  { s with gm := GM.move g A 0 s.gm, varTheta := s.varTheta.map (Option.map (VAtom.resize g ρ)) }

/-- All groups have parameters, or none has. -/
def Lined (s : VM V m Atom) : Prop := s.varTheta = [] ∨ s.varTheta.length = (s.varK.getD 0).toNat

theorem frob_sim (h : g.Similar ρ) (hF : Scales F ρ δ) (P : Fin m → Fin m → K) : frob F (g.pconj ρ P) = frob F P / ρ := by
  unfold frob
  rw [Affine.pconj_squares h, hF.sqrt]

theorem log_frob (h : g.Similar ρ) (hF : Scales F ρ δ) (P : Fin m → Fin m → K) :
    Fl.log F.log (.fin (frob F (g.pconj ρ P))) = plus (-δ) (Fl.log F.log (.fin (frob F P))) := by
  rw [frob_sim h hF]
  have hp := h.pos
  have h1 : frob F P / ρ < 0 ↔ frob F P < 0 := by rw [div_lt_iff₀ hp, zero_mul]
  have h2 : frob F P / ρ = 0 ↔ frob F P = 0 := by rw [div_eq_zero_iff]; simp [hp.ne']
  simp only [Fl.log, h1, h2]
  split
  · rfl
  · split
    · rfl
    · rename_i h3 h4
      rw [hF.log _ (lt_of_le_of_ne (not_lt.1 h3) (Ne.symm h4))]
      rw [Fl.plus_fin, sub_eq_add_neg]

theorem eLogNormWishart_sim (h : g.Similar ρ) (hF : Scales F ρ δ) (P : Fin m → Fin m → K) (nu : K) :
    eLogNormWishart F (g.pconj ρ P) nu = plus (-δ) (eLogNormWishart F P nu) := by
  unfold eLogNormWishart
  rw [log_frob h hF, plus_add]

theorem logWishartNorm_sim (h : g.Similar ρ) (hF : Scales F ρ δ) (P : Fin m → Fin m → K) (nu : K) :
    logWishartNorm F (g.pconj ρ P) nu = plus (nu / 2 * δ) (logWishartNorm F P nu) := by
  unfold logWishartNorm
  rw [log_frob h hF, scale_plus, plus_sub]
  congr 1
  ring

theorem entropyWishart_sim (h : g.Similar ρ) (hF : Scales F ρ δ) (P : Fin m → Fin m → K) (nu : K) :
    entropyWishart F (g.pconj ρ P) nu = plus (-(((m : K) + 1) / 2 * δ)) (entropyWishart F P nu) := by
  unfold entropyWishart
  rw [logWishartNorm_sim h hF, eLogNormWishart_sim h hF, neg_plus, scale_plus, plus_sub, sub_plus, plus_plus, plus_add]
  congr 1
  ring

theorem atomScore_sim (h : g.Similar ρ) (hF : Scales F ρ δ) (x : Fin m → K) (a : Option (VAtom K m)) :
    atomScore F (g.pt x) (a.map (VAtom.resize g ρ)) = plus (-(δ / 2)) (atomScore F x a) := by
  cases a with
  | none => rfl
  | some a =>
    simp only [Option.map_some, atomScore, VAtom.resize, eLogNormWishart_sim h hF, Affine.quad_pconj h, scale_plus, plus_add]
    congr 1
    ring

theorem mapScore_sim (h : g.Similar ρ) (hF : Scales F ρ δ) (x : Fin m → K) (a : Option (VAtom K m)) :
    mapScore F (g.pt x) (a.map (VAtom.resize g ρ)) = plus (-(δ / 2)) (mapScore F x a) := by
  cases a with
  | none => rfl
  | some a =>
    simp only [Option.map_some, mapScore, VAtom.resize, eLogNormWishart_sim h hF, Affine.quad_pconj h, scale_plus, plus_add]
    congr 1
    ring

theorem scoreColumn_sim (h : g.Similar ρ) (hF : Scales F ρ δ) {k : ℕ} (lw : List (Fl K)) {as : List (Option (VAtom K m))} (hk : as.length = k) (x : Fin m → K) :
    scoreColumn F k lw (as.map (Option.map (VAtom.resize g ρ))) (g.pt x) = (scoreColumn F k lw as x).map (plus (-(δ / 2))) := by
  unfold scoreColumn
  rw [List.zipWith_map_right, List.length_map, hk, Nat.sub_self, List.replicate_zero, List.append_nil, List.append_nil, List.map_zipWith]
  simp only [atomScore_sim h hF, add_plus]

theorem mapColumn_sim (h : g.Similar ρ) (hF : Scales F ρ δ) {k : ℕ} (lw : List (Fl K)) {as : List (Option (VAtom K m))} (hk : as.length = k) (x : Fin m → K) :
    mapColumn F k lw (as.map (Option.map (VAtom.resize g ρ))) (g.pt x) = (mapColumn F k lw as x).map (plus (-(δ / 2))) := by
  unfold mapColumn
  rw [List.zipWith_map_right, List.length_map, hk, Nat.sub_self, List.replicate_zero, List.append_nil, List.append_nil, List.map_zipWith]
  simp only [mapScore_sim h hF, add_plus]

theorem normMax_plus (eps d : K) (col : List (Fl K)) : normMax F eps (col.map (plus d)) = normMax F eps col := by
  unfold normMax
  simp only [List.map_map, maximum_plus, Function.comp_def, plus_sub_plus]

theorem mean_plus (d : K) {col : List (Fl K)} (hc : col ≠ []) : Fl.mean (col.map (plus d)) = plus d (Fl.mean col) := by
  unfold Fl.mean
  have e : Fl.sum (col.map (plus d)) = plus ((col.length : K) * d) (Fl.sum (col.map id)) := sum_plus d id col
  rw [List.map_id] at e
  rw [e, List.length_map]
  have hl : ((col.length : ℕ) : K) ≠ 0 := by
    rw [Nat.cast_ne_zero]
    exact fun h => hc (List.length_eq_zero_iff.1 h)
  cases Fl.sum col with
  | fin x =>
    simp only [Fl.plus_fin, Fl.div, if_neg hl]
    congr 1
    field_simp
  | nan => rfl
  | ninf => simp only [Fl.plus_ninf, Fl.div]; split <;> rfl
  | pinf => simp only [Fl.plus_pinf, Fl.div]; split <;> rfl

theorem normMean_plus (eps d : K) (col : List (Fl K)) : normMean F eps (col.map (plus d)) = normMean F eps col := by
  by_cases hc : col = []
  · subst hc; rfl
  unfold normMean
  simp only [List.map_map, mean_plus d hc, Function.comp_def, plus_sub_plus]

theorem normScore_sim (h : g.Similar ρ) (hF : Scales F ρ δ) (eps : K) {k : ℕ} (lw : List (Fl K)) {as : List (Option (VAtom K m))}
    (hk : as = [] ∨ as.length = k) (x : Fin m → K) :
    normMax F eps (scoreColumn F k lw (as.map (Option.map (VAtom.resize g ρ))) (g.pt x)) = normMax F eps (scoreColumn F k lw as x) := by
  rcases hk with rfl | hk
  · simp [scoreColumn]
  · rw [scoreColumn_sim h hF lw hk, normMax_plus]

theorem normMap_sim (h : g.Similar ρ) (hF : Scales F ρ δ) (eps : K) {k : ℕ} (lw : List (Fl K)) {as : List (Option (VAtom K m))}
    (hk : as = [] ∨ as.length = k) (x : Fin m → K) :
    normMean F eps (mapColumn F k lw (as.map (Option.map (VAtom.resize g ρ))) (g.pt x)) = normMean F eps (mapColumn F k lw as x) := by
  rcases hk with rfl | hk
  · simp [mapColumn]
  · rw [mapColumn_sim h hF lw hk, normMean_plus]

/-! ### Steps -/

theorem varAtom_sim (h : g.Similar ρ) {ys : List (Fin m → K)} {q : NIW K m} (hq : 0 < q.lam) {row : List (Fl K)}
    (hr : GoodRow ys.length row) : varAtom (ys.map g.pt) (g.niw q) row = (varAtom ys q row).map (Option.map (VAtom.resize g ρ)) := by
  unfold varAtom
  cases hn : Fl.numbers row with
  | none => rfl
  | some r =>
    simp only []
    split
    · rfl
    · rename_i hs
      obtain ⟨hl, hm⟩ := numbers_mem hn
      have hl' : r.length = ys.length := hl.trans hr.1
      have hpos : q.lam + r.sum ≠ 0 := (add_pos_of_pos_of_nonneg hq (List.sum_nonneg fun x hx => hr.2 x (hm x hx))).ne'
      rw [Affine.varPsi_sim h hl' hs, h.matInv]
      cases matInv (varPsi ys q r) with
      | error e => rfl
      | ok P =>
        refine congrArg (fun a => Except.ok (some a)) ?_
        rw [Affine.wMean_pt hl' hs]
        simp only [VAtom.resize, Affine.niw, VAtom.mk.injEq, and_true]
        exact Affine.mix_pt g hpos _ _

theorem varAtoms_sim (h : g.Similar ρ) {ys : List (Fin m → K)} {q : NIW K m} (hq : 0 < q.lam) : ∀ {rows : List (List (Fl K))},
    (∀ row ∈ rows, GoodRow ys.length row) → varAtoms (ys.map g.pt) (g.niw q) rows = (varAtoms ys q rows).map (List.map (Option.map (VAtom.resize g ρ)))
  | [], _ => rfl
  | row :: rows, hr => by
    rw [varAtoms, varAtoms, varAtom_sim h hq (hr row (by simp)), varAtoms_sim h hq (fun r hr' => hr r (by simp [hr']))]
    cases varAtom ys q row with
    | error e => rfl
    | ok a => cases varAtoms ys q rows <;> rfl

theorem varAtoms_len {ys : List (Fin m → K)} {q : NIW K m} : ∀ {rows : List (List (Fl K))} {as}, varAtoms ys q rows = .ok as → as.length = rows.length
  | [], as, h => by cases h; rfl
  | row :: rows, as, h => by
    rw [varAtoms] at h
    cases h1 : varAtom ys q row with
    | error e => rw [h1] at h; cases h
    | ok a =>
      rw [h1] at h
      cases h2 : varAtoms ys q rows with
      | error e => rw [h2] at h; cases h
      | ok as' =>
        rw [h2] at h
        cases h
        rw [List.length_cons, List.length_cons, varAtoms_len h2]

/-- What a fit needs of the object. -/
def GoodU (s : VM V m Atom) : Prop := GoodV s ∧ Lined s

theorem varRows_count (s : VM V m Atom) : (varRows s).length = (s.varK.getD 0).toNat := by simp [varRows]

theorem varRows_resize (s : VM V m Atom) : varRows (resize g ρ A s) = varRows s := rfl

theorem sim_updateVarTheta (h : g.Similar ρ) {s : VM V m Atom × ℕ} (hs : GoodU s.1) (hc : Cols s.1) :
    Mir ω (resize g ρ A) GoodU id updateVarTheta updateVarTheta s := by
  unfold updateVarTheta
  apply Mir.self_bind
  refine Mir.bind (f := List.map (Option.map (VAtom.resize g ρ))) (Mir.lift ?_ hs) fun as s1 e1 hs1 => Mir.assign rfl ⟨⟨hs1.1.lam, hs1.1.mu, hs1.1.len⟩, ?_⟩
  · have := GM.prior_move (g := g) (A := A) (L := 0) hs.1.mu
    show varAtoms (s.1.gm.y.map g.pt) (GM.prior (GM.move g A 0 s.1.gm)) (varRows s.1) = _
    rw [this]
    exact varAtoms_sim h hs.1.lam (varRows_good hc)
  · rw [M.lift_apply] at e1
    have e2 : varAtoms s.1.gm.y (GM.prior s.1.gm) (varRows s.1) = .ok as := congrArg Prod.fst e1
    have e3 : s = s1 := congrArg Prod.snd e1
    refine Or.inr ?_
    show as.length = _
    rw [varAtoms_len e2, varRows_count, e3]

theorem sim_updateVarD (h : g.Similar ρ) (hF : Scales F ρ δ) (he : W'.eps = W.eps) {s : VM V m Atom × ℕ} (hs : GoodU s.1) :
    Mir ω (resize g ρ A) GoodU id (updateVarD F W) (updateVarD F W') s := by
  unfold updateVarD
  apply Mir.self_bind
  have e : (resize g ρ A s.1).varK = s.1.varK := rfl
  have el : (resize g ρ A s.1).varTheta.length = s.1.varTheta.length := List.length_map _
  rw [e, el]
  cases hk : s.1.varK with
  | none => exact Mir.raise _ hs
  | some k =>
    refine Mir.ite Iff.rfl (fun _ => Mir.raise _ hs) fun _ => ?_
    refine Mir.bind (f := id) (Mir.lift (except_map_id _).symm hs) fun lw s1 e1 hs1 => ?_
    refine Mir.ite Iff.rfl (fun _ => Mir.raise _ hs1) fun _ => Mir.assign ?_ ⟨⟨hs1.1.lam, hs1.1.mu, hs1.1.len⟩, hs1.2⟩
    have e2 : s = s1 := by rw [M.lift_apply] at e1; exact congrArg Prod.snd e1
    have hL : s1.1.varTheta = [] ∨ s1.1.varTheta.length = k.toNat := by
      have := hs1.2
      unfold Lined at this
      rwa [← e2, hk, Option.getD_some, e2] at this
    have : (resize g ρ A s1.1).gm.y.map (fun x => normMax F W'.eps (scoreColumn F k.toNat lw (resize g ρ A s1.1).varTheta x)) =
        s1.1.gm.y.map (fun x => normMax F W.eps (scoreColumn F k.toNat lw s1.1.varTheta x)) := by
      show (s1.1.gm.y.map g.pt).map _ = _
      rw [List.map_map, he]
      apply List.map_congr_left
      intro x _
      simp only [Function.comp_apply]
      exact normScore_sim h hF _ _ hL _
    simp only [id, this]
    rfl

theorem sim_fitWeights (q : List (List (Fl K))) {s : VM V m Atom × ℕ} (hs : GoodU s.1) :
    Mir ω (resize g ρ A) GoodU id (fitWeights q) (fitWeights q) s := by
  unfold fitWeights
  apply Mir.self_bind
  exact Mir.bind (f := id) (Mir.lift (except_map_id _).symm hs) fun r s1 _ hs1 => Mir.assign rfl ⟨⟨hs1.1.lam, hs1.1.mu, hs1.1.len⟩, hs1.2⟩

theorem sim_updateVarW {s : VM V m Atom × ℕ} (hs : GoodU s.1) : Mir ω (resize g ρ A) GoodU id updateVarW updateVarW s := by
  unfold updateVarW
  apply Mir.self_bind
  rw [varRows_resize]
  exact sim_fitWeights _ hs

theorem sim_maximize (h : g.Similar ρ) (hS : Scales F ρ δ) (hF : ∀ x, 0 ≤ F.exp x) (he : 0 ≤ W.eps) (hW : W'.eps = W.eps) {s : VM V m Atom × ℕ} (hs : GoodU s.1) :
    Mir ω (resize g ρ A) GoodU id (maximize F W) (maximize F W') s := by
  unfold maximize
  refine Mir.bind (sim_updateVarD h hS hW hs) fun _ s1 e1 hs1 => Mir.bind (sim_updateVarW hs1) fun _ s2 e2 hs2 => ?_
  have c1 := wp_of_ok e1 (updateVarD_cols hF he s)
  exact sim_updateVarTheta h hs2 (c1.1.of_eq (wp_of_ok e2 (updateVarW_cols s1)))

/-- After a round all groups have parameters. -/
def Filled (k : ℤ) (s : VM V m Atom) : Prop := 0 ≤ k ∧ s.varK = some k ∧ s.varTheta.length = k.toNat

theorem maximize_filled {s : VM V m Atom × ℕ} : wp ω (maximize F W) (fun _ t => t.1.varK = s.1.varK ∧ ∃ k, Filled k t.1) (fun _ _ => True) s := by
  unfold maximize updateVarD
  simp only [wp_bind, wp_self]
  cases hk : s.1.varK with
  | none => trivial
  | some k =>
    simp only []
    rw [wp_ite]
    refine ⟨fun _ => trivial, fun h0 => ?_⟩
    rw [wp_bind, wp_lift]
    refine ⟨fun lw _ => ?_, fun _ _ => trivial⟩
    rw [wp_ite]
    refine ⟨fun _ => trivial, fun _ => ?_⟩
    rw [wp_assign]
    unfold updateVarW fitWeights updateVarTheta
    simp only [wp_bind, wp_self, wp_lift, wp_assign]
    refine ⟨fun r _ => ⟨fun as ha => ?_, fun _ _ => trivial⟩, fun _ _ => trivial⟩
    refine ⟨hk, k, not_lt.1 h0, hk, ?_⟩
    have := varAtoms_len ha
    rw [varRows_count] at this
    refine this.trans ?_
    show (s.1.varK.getD 0).toNat = _
    rw [hk]
    rfl

/-! ### The bound -/

theorem pxTerm_sim (h : g.Similar ρ) (hF : Scales F ρ δ) {ys : List (Fin m → K)} {row : List (Fl K)} (hr : GoodRow ys.length row) (a : Option (VAtom K m)) :
    pxTerm F (ys.map g.pt) row (a.map (VAtom.resize g ρ)) = plus (-δ) (pxTerm F ys row a) := by
  unfold pxTerm
  cases hn : Fl.numbers row with
  | none => rfl
  | some r =>
    cases a with
    | none => rfl
    | some a =>
      simp only [Option.map_some]
      split
      · rfl
      · rename_i hs
        have hl : r.length = ys.length := (numbers_mem hn).1.trans hr.1
        rw [Affine.wMean_pt hl hs, Affine.wCov_pt hl hs]
        simp only [VAtom.resize, eLogNormWishart_sim h hF, Affine.traceMul_pconj h, Affine.quad_pconj h, plus_add]

theorem eLogPx_sim (h : g.Similar ρ) (hF : Scales F ρ δ) {s : VM V m Atom} {k : ℤ} (hc : Cols s) (hk : Filled k s) :
    eLogPx F (resize g ρ A s) = plus (-((k : K) * δ / 2)) (eLogPx F s) := by
  unfold eLogPx
  have : List.zipWith (pxTerm F (resize g ρ A s).gm.y) (varRows (resize g ρ A s)) (resize g ρ A s).varTheta =
      (List.zip (varRows s) s.varTheta).map (fun p => plus (-δ) (pxTerm F s.gm.y p.1 p.2)) := by
    show List.zipWith (pxTerm F (s.gm.y.map g.pt)) (varRows s) (s.varTheta.map (Option.map (VAtom.resize g ρ))) = _
    rw [List.zipWith_map_right, Affine.zipWith_eq_map]
    apply List.map_congr_left
    intro p hp
    exact pxTerm_sim h hF (varRows_good hc _ (List.of_mem_zip hp).1) _
  rw [this, sum_plus, ← Affine.zipWith_eq_map, plus_sub, scale_plus]
  have hl : (((List.zip (varRows s) s.varTheta).length : ℕ) : K) = (k : K) := by
    rw [List.length_zip, varRows_count, hk.2.1, hk.2.2, Option.getD_some, min_self]
    have := Int.toNat_of_nonneg hk.1
    exact_mod_cast congrArg (Int.cast (R := K)) this
  rw [hl]
  show plus _ (Fl.scale _ (_ - Fl.fin (_ * _ * ((s.varK.getD 0 : ℤ) : K)))) = _
  congr 1
  ring

theorem pThetaTerm_sim (h : g.Similar ρ) (hF : Scales F ρ δ) (q : NIW K m) (a : Option (VAtom K m)) :
    pThetaTerm F (g.niw q) (a.map (VAtom.resize g ρ)) = plus (-((q.nu - m) * δ)) (pThetaTerm F q a) := by
  cases a with
  | none => rfl
  | some a =>
    simp only [Option.map_some, pThetaTerm, VAtom.resize, Affine.niw, eLogNormWishart_sim h hF, Affine.traceMul_pconj h, Affine.quad_pconj h, scale_plus, plus_add]
    congr 1
    ring

theorem qThetaTerm_sim (h : g.Similar ρ) (hF : Scales F ρ δ) (a : Option (VAtom K m)) :
    qThetaTerm F (a.map (VAtom.resize g ρ)) = plus (((m : K) - 1) / 2 * δ) (qThetaTerm F a) := by
  cases a with
  | none => rfl
  | some a =>
    simp only [Option.map_some, qThetaTerm, VAtom.resize, eLogNormWishart_sim h hF, entropyWishart_sim h hF, plus_add, plus_sub, sub_plus, plus_plus]
    congr 1
    ring

theorem eLogPTheta_sim (h : g.Similar ρ) (hF : Scales F ρ δ) {s : VM V m Atom} {k : ℤ} (hs : GoodV s) (hk : Filled k s) :
    eLogPTheta F (resize g ρ A s) = (eLogPTheta F s).map (plus ((k : K) * m * δ / 2)) := by
  unfold eLogPTheta
  have e : GM.prior (resize g ρ A s).gm = g.niw (GM.prior s.gm) := GM.prior_move hs.mu
  have e1 : (g.niw (GM.prior s.gm)).psi = g.conj (GM.prior s.gm).psi := rfl
  have e2 : (resize g ρ A s).varTheta = s.varTheta.map (Option.map (VAtom.resize g ρ)) := rfl
  rw [e, e1, h.matInv, e2, List.map_map]
  have e3 : pThetaTerm F (g.niw (GM.prior s.gm)) ∘ Option.map (VAtom.resize g ρ) = fun a => plus (-(((GM.prior s.gm).nu - m) * δ)) (pThetaTerm F (GM.prior s.gm) a) :=
    funext fun a => pThetaTerm_sim h hF _ a
  rw [e3, sum_plus]
  have hl : ((s.varTheta.length : ℕ) : K) = (k : K) := by
    rw [hk.2.2]
    exact_mod_cast congrArg (Int.cast (R := K)) (Int.toNat_of_nonneg hk.1)
  cases matInv (GM.prior s.gm).psi with
  | error e => rfl
  | ok P =>
    simp only [Except.map, logWishartNorm_sim h hF, plus_add, scale_plus]
    refine congrArg Except.ok ?_
    have e4 : ((resize g ρ A s).varK.getD 0) = k := by show s.varK.getD 0 = k; rw [hk.2.1]; rfl
    have e5 : (s.varK.getD 0) = k := by rw [hk.2.1]; rfl
    simp only [e4, e5, add_plus, plus_plus, hl]
    show plus _ (Fl.scale (1 / 2) (_ + Fl.fin (_ * F.log (s.gm.lam / _) * _)) + Fl.scale _ (logWishartNorm F P (GM.prior s.gm).nu)) = _
    congr 1
    show k * ((GM.prior s.gm).nu / 2 * δ) + _ * (_ * -(((GM.prior s.gm).nu - m) * δ)) = _
    ring

theorem eLogQTheta_sim (h : g.Similar ρ) (hF : Scales F ρ δ) {s : VM V m Atom} {k : ℤ} (hk : Filled k s) :
    eLogQTheta F (resize g ρ A s) = plus ((k : K) * ((m : K) - 1) * δ / 4) (eLogQTheta F s) := by
  unfold eLogQTheta
  have e2 : (resize g ρ A s).varTheta = s.varTheta.map (Option.map (VAtom.resize g ρ)) := rfl
  have e3 : qThetaTerm F ∘ Option.map (VAtom.resize g ρ) = fun a => plus (((m : K) - 1) / 2 * δ) (qThetaTerm F a) := funext fun a => qThetaTerm_sim h hF a
  rw [e2, List.map_map, e3, sum_plus, plus_add, scale_plus]
  have hl : ((s.varTheta.length : ℕ) : K) = (k : K) := by
    rw [hk.2.2]
    exact_mod_cast congrArg (Int.cast (R := K)) (Int.toNat_of_nonneg hk.1)
  rw [hl]
  show plus _ (Fl.scale _ (_ + Fl.fin (_ * ((s.varK.getD 0 : ℤ) : K)))) = _
  congr 1
  ring

/-- What the units add to the bound. -/
def unitShift (m : ℕ) (δ : K) (k : ℤ) : K := (k : K) * ((m : K) - 1) * δ / 4

theorem calcElbo_sim (h : g.Similar ρ) (hF : Scales F ρ δ) {s : VM V m Atom} {k : ℤ} (hs : GoodV s) (hc : Cols s) (hk : Filled k s) :
    calcElbo F (resize g ρ A s) = (calcElbo F s).map (plus (unitShift m δ k)) := by
  unfold calcElbo
  simp only [eLogPx_sim h hF hc hk, eLogPTheta_sim h hF hs hk, eLogQTheta_sim h hF hk, varRows_resize]
  show (do
    let pd ← V.meanLogPd s.gm.wst.1 s.vst (varRows s)
    let pw ← V.meanLogPw s.gm.wst.1 s.vst
    let pt ← (eLogPTheta F s).map (plus ((k : K) * m * δ / 2))
    let qw ← V.meanLogPw s.gm.wst.1 s.vst
    pure (plus (-((k : K) * δ / 2)) (eLogPx F s) + pd + pw + pt - eLogQd F s - qw - plus ((k : K) * ((m : K) - 1) * δ / 4) (eLogQTheta F s))) = _
  cases V.meanLogPd s.gm.wst.1 s.vst (varRows s) with
  | error e => rfl
  | ok pd =>
    cases V.meanLogPw s.gm.wst.1 s.vst with
    | error e => rfl
    | ok pw =>
      cases eLogPTheta F s with
      | error e => rfl
      | ok pt =>
        refine congrArg Except.ok ?_
        show plus (-((k : K) * δ / 2)) (eLogPx F s) + pd + pw + plus ((k : K) * m * δ / 2) pt - eLogQd F s - pw -
          plus ((k : K) * ((m : K) - 1) * δ / 4) (eLogQTheta F s) = plus _ (eLogPx F s + pd + pw + pt - eLogQd F s - pw - eLogQTheta F s)
        simp only [plus_add, add_plus, plus_sub, sub_plus, plus_plus]
        congr 1
        unfold unitShift
        ring

/-! ### Starts and loop -/

/-- What the surroundings of two fits have to do with each other: same functions, draws that follow the map (the matrices drawn are invertible exactly if the scale
matrix of the law is), a k-means that follows the map and labels every row. -/
structure Resized (g : Affine K m) (F F' : VWorld K m) (W W' : World K m Atom) : Prop where
  fn : F'.toMathFun = F.toMathFun
  niw : ∀ p q, F'.niw p (g.niw q) = (g.pt (F.niw p q).1, g.conj (F.niw p q).2)
  inv : ∀ p q, (Matrix.of (F.niw p q).2).det = 0 ↔ (Matrix.of q.psi).det = 0
  kmeans : ∀ p ys k, W'.kmeans p (ys.map g.pt) k = W.kmeans p ys k
  argsort : W'.argsort = W.argsort
  eps : W'.eps = W.eps
  exp_nonneg : ∀ x, 0 ≤ F.exp x
  eps_nonneg : 0 ≤ W.eps
  labels : ∀ p ys k raw, W.kmeans p ys k = .ok raw → raw.length = ys.length

theorem sim_drawAtoms (h : g.Similar ρ) {F F' : VWorld K m} (hF : Resized g F F' W W') : ∀ (k : ℕ) {s : VM V m Atom × ℕ}, GoodV s.1 →
    Mir ω (resize g ρ A) GoodV id (drawAtoms F k) (drawAtoms F' k) s ∧
    wp ω (drawAtoms F k) (fun _ t => t.1.varK = s.1.varK ∧ t.1.varTheta.length = s.1.varTheta.length + k)
      (fun _ t => (Matrix.of (GM.prior s.1.gm).psi).det = 0 ∧ t.1.varTheta = s.1.varTheta) s
  | 0, s, hs => ⟨Mir.pure rfl hs, ⟨rfl, rfl⟩⟩
  | k + 1, s, hs => by
    constructor
    · unfold drawAtoms
      apply Mir.self_bind
      have e : GM.prior (resize g ρ A s.1).gm = g.niw (GM.prior s.1.gm) := GM.prior_move hs.mu
      rw [e]
      refine Mir.bind (f := fun a => (g.pt a.1, g.conj a.2)) (Mir.draw1 (fun p => hF.niw p _) hs) fun a s1 _ hs1 => ?_
      refine Mir.bind (f := g.pconj ρ) (Mir.lift (h.matInv _) hs1) fun P s2 _ hs2 => ?_
      refine Mir.bind (Mir.assign ?_ hs2) fun _ s3 _ hs3 => (sim_drawAtoms h hF k hs3).1
      have e : GM.prior (resize g ρ A s2.1).gm = g.niw (GM.prior s2.1.gm) := GM.prior_move hs2.mu
      have e2 : (GM.prior (resize g ρ A s2.1).gm).nu = (GM.prior s2.1.gm).nu := by rw [e]; rfl
      rw [e2]
      unfold resize
      simp only [List.map_append, List.map_cons, List.map_nil, Option.map_some, VAtom.resize]
      rfl
    · unfold drawAtoms
      rw [wp_bind, wp_self, wp_bind]
      show wp ω (M.lift (matInv (F.niw s.2 (GM.prior s.1.gm)).2) >>= _) _ _ (s.1, s.2 + 1)
      rw [wp_bind, wp_lift, Affine.matInv_eq]
      by_cases h0 : (Matrix.of (F.niw s.2 (GM.prior s.1.gm)).2).det = 0
      · rw [if_pos h0]
        exact ⟨fun P hP => (by cases hP), fun e _ => ⟨(hF.inv _ _).1 h0, rfl⟩⟩
      rw [if_neg h0]
      refine ⟨fun P _ => ?_, fun e he => by cases he⟩
      rw [wp_bind, wp_assign]
      have := (sim_drawAtoms h hF k (s := (({ s.1 with varTheta := s.1.varTheta ++ [some
        { mu := (F.niw s.2 (GM.prior s.1.gm)).1, lam := s.1.gm.lam, prec := P, scale := (GM.prior s.1.gm).nu }] } : VM V m Atom), s.2 + 1)) hs).2
      refine wp_mono this (fun _ t ht => ⟨ht.1, ?_⟩) fun _ _ hf => absurd ((hF.inv _ _).2 hf.1) h0
      rw [ht.2]
      simp only [List.length_append, List.length_singleton]
      omega

theorem Lined.of_eq {s t : VM V m Atom} (h : Lined s) (e : t.varTheta = s.varTheta ∧ t.varK = s.varK) : Lined t := by
  unfold Lined at h ⊢
  rw [e.1, e.2]; exact h

theorem sim_initVar (h : g.Similar ρ) {F F' : VWorld K m} (hS : Scales F.toMathFun ρ δ) (hF : Resized g F F' W W') (k : ℤ) (method : VarInit)
    {s : VM V m Atom × ℕ} (hs : GoodV s.1) : Mir ω (resize g ρ A) GoodU id (initVar F W k method) (initVar F' W' k method) s := by
  have hL : ∀ t : VM V m Atom, t.varTheta = [] → Lined t := fun t ht => Or.inl ht
  cases method with
  | kmeans =>
    unfold initVar
    refine Mir.bind (Mir.assign rfl ⟨hs, hL _ rfl⟩) fun _ s1 _ hs1 => ?_
    apply Mir.self_bind
    refine Mir.bind (f := id) (Mir.draw1 (fun p => hF.kmeans p _ _) hs1) fun r s2 e2 hs2 => ?_
    refine Mir.bind (f := id) (Mir.lift (except_map_id _).symm hs2) fun raw s3 e3 hs3 => ?_
    refine Mir.ite Iff.rfl (fun _ => Mir.raise _ hs3) fun _ => ?_
    rw [hF.argsort, hF.fn]
    refine Mir.ite Iff.rfl (fun _ => Mir.raise _ hs3) fun _ => ?_
    refine Mir.bind (Mir.assign rfl ⟨⟨hs3.1.lam, hs3.1.mu, hs3.1.len⟩, hs3.2⟩) fun _ s4 e4 hs4 => ?_
    refine Mir.bind (sim_fitWeights _ hs4) fun _ s5 e5 hs5 => ?_
    have hy2 : s2.1 = s1.1 := by cases e2; rfl
    have hy3 : s3 = s2 := by rw [M.lift_apply] at e3; cases e3; rfl
    have hraw : raw.length = s1.1.gm.y.length := by
      have h2 : r = W.kmeans s1.2 s1.1.gm.y k := by cases e2; rfl
      have h3 : r = .ok raw := by rw [M.lift_apply] at e3; exact congrArg Prod.fst e3
      exact hF.labels _ _ _ _ (h2.symm.trans h3)
    have hc4 : Cols s4.1 := by
      cases e4
      rw [hy3, hy2]
      refine ⟨?_, ?_⟩
      · simp only [List.length_map]
        unfold sizeBiased npInverse
        simp only [List.length_map]
        exact hraw
      · intro c hc x hx
        obtain ⟨i, _, rfl⟩ := List.mem_map.1 hc
        obtain ⟨j, _, hj⟩ := List.mem_map.1 hx
        split at hj <;> cases hj
        · exact zero_le_one
        · exact le_refl _
    have hc5 : Cols s5.1 := hc4.of_eq (wp_of_ok e5 (fitWeights_cols _ s4))
    refine Mir.bind (sim_updateVarTheta h hs5 hc5) fun _ s6 _ hs6 => ?_
    refine Mir.bind (sim_updateVarD h hS hF.eps hs6) fun _ s7 _ hs7 => sim_updateVarW hs7
  | random =>
    unfold initVar
    refine Mir.bind (Mir.assign rfl ⟨hs, hL _ rfl⟩) fun _ s1 e1 hs1 => ?_
    obtain ⟨d1, d2⟩ := sim_drawAtoms (ω := ω) (A := A) h hF k.toNat hs1.1
    have d3 : Mir ω (resize g ρ A) GoodU id (drawAtoms F k.toNat) (drawAtoms F' k.toNat) s1 := by
      refine ⟨d1.1, d1.2, ?_⟩
      have e : s1.1.varTheta = [] ∧ s1.1.varK = some k := by cases e1; exact ⟨rfl, rfl⟩
      unfold wp at d2
      rcases hd : drawAtoms F k.toNat ω s1 with ⟨x | x, t⟩
      · rw [hd] at d2; exact Or.inl (d2.2.trans e.1)
      · rw [hd] at d2
        refine Or.inr ?_
        show t.1.varTheta.length = (t.1.varK.getD 0).toNat
        rw [d2.1, d2.2, e.1, e.2]
        simp
    refine Mir.bind d3 fun _ s2 _ hs2 => ?_
    refine Mir.ite Iff.rfl (fun _ => Mir.raise _ hs2) fun _ => Mir.ite Iff.rfl (fun _ => Mir.raise _ hs2) fun _ => ?_
    refine Mir.bind (Mir.assign ?_ ⟨⟨hs2.1.lam, hs2.1.mu, hs2.1.len⟩, hs2.2⟩) fun _ s3 _ hs3 => sim_updateVarW hs3
    unfold resize GM.move
    simp only [List.map_map, VM.mk.injEq, true_and]
    exact ⟨by trivial, by trivial⟩
  | unknown =>
    unfold initVar
    exact Mir.bind (Mir.assign rfl ⟨hs, hL _ rfl⟩) fun _ s1 _ hs1 => Mir.raise _ hs1

theorem sim_varLoop (h : g.Similar ρ) (hS : Scales F ρ δ) (hx : ∀ x, 0 ≤ F.exp x) (he : 0 ≤ W.eps) (hW : W'.eps = W.eps) (tol : Fl K) :
    ∀ (n : ℕ) (elbo diff : Fl K) (it : ℤ) {s : VM V m Atom × ℕ}, GoodU s.1 →
      Mir ω (resize g ρ A) GoodU id (varLoop F W tol n elbo diff it) (varLoop F W' tol n (plus (unitShift m δ (s.1.varK.getD 0)) elbo) diff it) s
  | 0, _, _, _, s, hs => Mir.raise _ hs
  | n + 1, elbo, diff, it, s, hs => by
    unfold varLoop
    apply Mir.self_bind
    refine Mir.ite Iff.rfl (fun _ => ?_) fun _ => Mir.pure rfl hs
    refine Mir.bind (sim_maximize h hS hx he hW hs) fun _ s1 e1 hs1 => ?_
    apply Mir.self_bind
    obtain ⟨hk, k, hf⟩ := wp_of_ok e1 (maximize_filled (F := F) (W := W) (ω := ω) (s := s))
    rw [calcElbo_sim h hS hs1.1 (wp_of_ok e1 (maximize_cols hx he s)) hf]
    refine Mir.bind (f := plus (unitShift m δ k)) (Mir.lift rfl hs1) fun e s2 e2 hs2 => ?_
    have e3 : s1 = s2 := by rw [M.lift_apply] at e2; exact congrArg Prod.snd e2
    have e4 : s.1.varK.getD 0 = k := by rw [← hk, hf.2.1]; rfl
    have e5 : s2.1.varK.getD 0 = k := by rw [← e3, hf.2.1]; rfl
    rw [e4, plus_sub_plus]
    have := sim_varLoop h hS hx he hW tol n e (Fl.abs (elbo - e)) (it + 1) hs2
    rw [e5] at this
    exact this

theorem sim_initCommonV (y : YArg K m) {s : VM V m Atom × ℕ} (hy : ∀ ys, y = .rows ys → ys ≠ [] ∨ s.1.gm.muPrior.isSome = true) (hs : 0 < s.1.gm.lam)
    (hL : Lined s.1) :
    Mir ω (resize g ρ A) (fun s => 0 < s.gm.lam ∧ Lined s) id (onGM (GM.initCommon y)) (onGM (GM.initCommon (GM.YArg.move g y))) s ∧
    ∀ a t, onGM (GM.initCommon y) ω s = (.ok a, t) → GoodU t.1 := by
  obtain ⟨⟨m1, m2⟩, m3⟩ := mir_initCommonV (ω := ω) (g := g) (A := A) y hy hs
  refine ⟨⟨?_, m2, hL⟩, fun a t h => ⟨m3 a t h, ?_⟩⟩
  · rw [onGM_eq] at m1 ⊢
    rw [onGM_eq] at m1 ⊢
    have a1 := congrArg Prod.fst m1
    have a2 := congrArg (fun z => z.2.1.gm) m1
    have a3 := congrArg (fun z => z.2.2) m1
    simp only at a1 a2 a3
    show (_, (_, _)) = (_, (_, _))
    refine Prod.ext a1 (Prod.ext ?_ a3)
    show ({ resize g ρ A s.1 with gm := _ } : VM V m Atom) = resize g ρ A _
    unfold resize
    simp only [VM.mk.injEq, and_true]
    exact a2
  · rw [onGM_eq] at h
    have := congrArg (fun z => z.2.1) h
    simp only at this
    rw [← this]
    exact hL

theorem weakenU {α β : Type} {f : α → β} {x : M K (VM V m Atom) α} {y : M K (VM V m Atom) β} {s : VM V m Atom × ℕ}
    (h : Mir ω (resize g ρ A) GoodU f x y s) : Mir ω (resize g ρ A) (fun s => 0 < s.gm.lam ∧ Lined s) f x y s := ⟨h.1, h.2.1.lam, h.2.2⟩

theorem sim_fitVariational (h : g.Similar ρ) {F F' : VWorld K m} (hS : Scales F.toMathFun ρ δ) (hF : Resized g F F' W W')
    (y : YArg K m) (nGroups : Option ℤ) (warm : Bool) (tol : Fl K) (method : VarInit) {s : VM V m Atom × ℕ}
    (hy : ∀ ys, y = .rows ys → ys ≠ [] ∨ s.1.gm.muPrior.isSome = true) (hs : 0 < s.1.gm.lam) (hL : Lined s.1) :
    Mir ω (resize g ρ A) (fun s => 0 < s.gm.lam ∧ Lined s) id (fitVariational F W y nGroups warm tol method)
      (fitVariational F' W' (GM.YArg.move g y) nGroups warm tol method) s := by
  obtain ⟨m1, m2⟩ := sim_initCommonV (ω := ω) (g := g) (ρ := ρ) (A := A) y hy hs hL
  unfold fitVariational
  refine Mir.bind m1 fun u s1 e1 _ => weakenU ?_
  have hs1 := m2 u s1 e1
  refine Mir.bind (f := id) (Mir.whenM hs1 ?_) fun _ s2 _ hs2 => ?_
  · apply Mir.self_bind
    have e : (resize g ρ A s1.1).gm.nAttr = s1.1.gm.nAttr := rfl
    rw [e]
    cases nGroups with
    | some k => exact sim_initVar h hS hF k method hs1.1
    | none =>
      cases s1.1.gm.nAttr with
      | some n => exact sim_initVar h hS hF n method hs1.1
      | none => exact Mir.raise _ hs1
  · apply Mir.self_bind
    rw [hF.fn]
    exact Mir.bind (sim_varLoop h hS hF.exp_nonneg hF.eps_nonneg hF.eps tol _ .ninf _ _ hs2) fun it s3 _ hs3 =>
      Mir.assign rfl ⟨⟨hs3.1.lam, hs3.1.mu, hs3.1.len⟩, hs3.2⟩
end VM
end Mix
end Verif
