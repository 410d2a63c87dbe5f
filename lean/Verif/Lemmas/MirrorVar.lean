import Verif.Lemmas.MirrorGibbs
import Verif.Lemmas.VarLoop
import Mathlib.LinearAlgebra.Matrix.NonsingularInverse

/-! # The variational algorithm on transformed data -/

set_option linter.unusedSectionVars false

namespace Verif.Mix
open scoped Matrix
variable {K : Type} [Field K] [LinearOrder K] [IsStrictOrderedRing K] {C : WeightClass K} {V : VarClass C} {m : ℕ} {Atom : Type} {ω : Oracle K}

namespace Affine
variable (g : Affine K m)

/-- The linear part is orthogonal. -/
def Rigid : Prop := Matrix.of g.B * (Matrix.of g.B)ᵀ = 1

/-- The linear part keeps the vector of ones up to its sign: the products of the sums of its rows are one. -/
def KeepsOnes : Prop := ∀ i j, (∑ k, g.B i k) * (∑ k, g.B j k) = 1

variable {g}

theorem of_conj (P : Fin m → Fin m → K) : Matrix.of (g.conj P) = Matrix.of g.B * Matrix.of P * (Matrix.of g.B)ᵀ := by
  ext i j
  simp only [Matrix.of_apply, Affine.conj, Matrix.mul_apply, Matrix.transpose_apply, Finset.sum_mul]
  exact Finset.sum_comm

theorem Rigid.left (h : g.Rigid) : (Matrix.of g.B)ᵀ * Matrix.of g.B = 1 := mul_eq_one_comm.1 h

theorem Rigid.det (h : g.Rigid) : (Matrix.of g.B).det * (Matrix.of g.B).det = 1 := by
  have := congrArg Matrix.det h
  rwa [Matrix.det_mul, Matrix.det_transpose, Matrix.det_one] at this

theorem Rigid.det_conj (h : g.Rigid) (P : Fin m → Fin m → K) : (Matrix.of (g.conj P)).det = (Matrix.of P).det := by
  rw [of_conj, Matrix.det_mul, Matrix.det_mul, Matrix.det_transpose, mul_right_comm, h.det, one_mul]

theorem matInv_eq (P : Fin m → Fin m → K) : matInv P = if (Matrix.of P).det = 0 then .error .linAlgError else .ok (fun i j => (Matrix.of P)⁻¹ i j) := by
  unfold matInv
  split
  · rfl
  · rename_i h
    refine congrArg Except.ok ?_
    funext i j
    rw [Matrix.inv_def, Ring.inverse_eq_inv', Matrix.smul_apply, smul_eq_mul, div_eq_inv_mul]

theorem Rigid.matInv (h : g.Rigid) (P : Fin m → Fin m → K) : matInv (g.conj P) = (matInv P).map g.conj := by
  rw [matInv_eq, matInv_eq, h.det_conj]
  split
  · rfl
  · refine congrArg Except.ok ?_
    have hi : (Matrix.of g.B)⁻¹ = (Matrix.of g.B)ᵀ := Matrix.inv_eq_right_inv h
    have hit : ((Matrix.of g.B)ᵀ)⁻¹ = Matrix.of g.B := Matrix.inv_eq_right_inv h.left
    have : (Matrix.of (g.conj P))⁻¹ = Matrix.of g.B * (Matrix.of P)⁻¹ * (Matrix.of g.B)ᵀ := by
      rw [of_conj, Matrix.mul_inv_rev, Matrix.mul_inv_rev, hi, hit, Matrix.mul_assoc]
    funext i j
    rw [this]
    have e := congrFun (congrFun (of_conj (g := g) (fun i j => (Matrix.of P)⁻¹ i j)) i) j
    exact e.symm

/-- The bilinear form of a matrix. -/
theorem lin_dot (h : g.Rigid) (x y : Fin m → K) : ∑ i, g.lin x i * g.lin y i = ∑ i, x i * y i := by
  have : ∑ i, g.lin x i * g.lin y i = (Matrix.of g.B).mulVec x ⬝ᵥ (Matrix.of g.B).mulVec y := by
    simp only [dotProduct, Matrix.mulVec, lin, Matrix.of_apply]
  rw [this, Matrix.dotProduct_mulVec, ← Matrix.vecMul_transpose, Matrix.vecMul_vecMul, h.left, Matrix.vecMul_one]
  rfl

theorem traceMul_conj (h : g.Rigid) (P Q : Fin m → Fin m → K) : VM.traceMul (g.conj P) (g.conj Q) = VM.traceMul P Q := by
  have e : ∀ P Q : Fin m → Fin m → K, VM.traceMul P Q = Matrix.trace (Matrix.of P * Matrix.of Q) := by
    intro P Q
    simp only [VM.traceMul, Matrix.trace, Matrix.diag_apply, Matrix.mul_apply, Matrix.of_apply]
  rw [e, e, of_conj, of_conj]
  have : Matrix.of g.B * Matrix.of P * (Matrix.of g.B)ᵀ * (Matrix.of g.B * Matrix.of Q * (Matrix.of g.B)ᵀ) =
      Matrix.of g.B * (Matrix.of P * Matrix.of Q) * (Matrix.of g.B)ᵀ := by
    have : Matrix.of g.B * Matrix.of P * (Matrix.of g.B)ᵀ * (Matrix.of g.B * Matrix.of Q * (Matrix.of g.B)ᵀ) =
        Matrix.of g.B * Matrix.of P * ((Matrix.of g.B)ᵀ * Matrix.of g.B) * (Matrix.of Q * (Matrix.of g.B)ᵀ) := by
      simp only [Matrix.mul_assoc]
    rw [this, h.left, Matrix.mul_one]
    simp only [Matrix.mul_assoc]
  rw [this, Matrix.trace_mul_comm, ← Matrix.mul_assoc, h.left, Matrix.one_mul]

theorem conj_transpose (P : Fin m → Fin m → K) : g.conj (fun i j => P j i) = fun i j => g.conj P j i := by
  funext i j
  unfold conj
  rw [Finset.sum_comm]
  exact Finset.sum_congr rfl fun k _ => Finset.sum_congr rfl fun l _ => by ring

theorem frob_conj (h : g.Rigid) (F : MathFun K) (P : Fin m → Fin m → K) : frob F (g.conj P) = frob F P := by
  unfold frob
  congr 1
  have : VM.traceMul (g.conj P) (fun i j => g.conj P j i) = VM.traceMul P (fun i j => P j i) := by
    rw [← conj_transpose P]
    exact traceMul_conj h P _
  exact this

theorem conj_lin (h : g.Rigid) (P : Fin m → Fin m → K) (x : Fin m → K) (i : Fin m) :
    ∑ j, g.conj P i j * g.lin x j = g.lin (fun k => ∑ l, P k l * x l) i := by
  have e : ∀ (P : Fin m → Fin m → K) (x : Fin m → K) i, ∑ j, P i j * x j = (Matrix.of P).mulVec x i := fun _ _ _ => rfl
  have e1 : ∀ x, g.lin x = (Matrix.of g.B).mulVec x := fun _ => rfl
  have e2 : (fun k => ∑ l, P k l * x l) = (Matrix.of P).mulVec x := rfl
  rw [e2, e1, e1, e, of_conj, Matrix.mulVec_mulVec, Matrix.mul_assoc, h.left, Matrix.mul_one, ← Matrix.mulVec_mulVec]

theorem quad_conj (h : g.Rigid) (P : Fin m → Fin m → K) (x mu : Fin m → K) : VM.quad (g.conj P) (g.pt x) (g.pt mu) = VM.quad P x mu := by
  unfold VM.quad
  simp only [lin_sub, conj_lin h]
  exact lin_dot h _ _

theorem conj_const (h : g.KeepsOnes) (a : K) (i j : Fin m) : g.conj (fun _ _ => a) i j = a := by
  have := conj_outer g (fun _ => a) (fun _ => 1) i j
  simp only [mul_one] at this
  rw [this]
  unfold lin
  simp only [mul_one]
  rw [← Finset.sum_mul, mul_right_comm, h i j, one_mul]

/-! ### Weighted means and scatter matrices -/

theorem zipWith_eq_map {α β γ : Type} (f : α → β → γ) (l : List α) (l' : List β) : List.zipWith f l l' = (List.zip l l').map (fun p => f p.1 p.2) := by
  rw [List.zip, List.map_zipWith]

theorem sum_zip_fst {β : Type} {r : List K} {ys : List β} (h : r.length = ys.length) (f : K → K) : ((List.zip r ys).map fun p => f p.1).sum = (r.map f).sum := by
  have : (List.zip r ys).map (fun p => f p.1) = ((List.zip r ys).map Prod.fst).map f := by rw [List.map_map]; rfl
  rw [this, List.map_fst_zip h.le]

theorem wMean_pt {ys : List (Fin m → K)} {r : List K} (hl : r.length = ys.length) (hr : r.sum ≠ 0) : VM.wMean (ys.map g.pt) r = g.pt (VM.wMean ys r) := by
  funext i
  have e : ∀ i, VM.wMean ys r i = ((List.zip r ys).map fun p => p.1 / r.sum * p.2 i).sum := fun i => by
    unfold VM.wMean; rw [zipWith_eq_map]
  have h := pt_sum g (List.zip r ys) (fun p => p.1 / r.sum) (by
    rw [sum_zip_fst hl (fun x => x / r.sum)]
    simp only [div_eq_mul_inv]
    rw [List.sum_map_mul_right, List.map_id', mul_inv_cancel₀ hr]) (fun p => p.2) i
  unfold VM.wMean
  rw [List.zipWith_map_right, zipWith_eq_map]
  refine h.trans ?_
  congr 1
  funext j
  rw [zipWith_eq_map]

theorem wCov_pt {ys : List (Fin m → K)} {r : List K} (hl : r.length = ys.length) (hr : r.sum ≠ 0) : VM.wCov (ys.map g.pt) r = g.conj (VM.wCov ys r) := by
  funext i j
  have e : g.conj (VM.wCov ys r) i j = (r.sum)⁻¹ * g.conj (fun i j => ((List.zip r ys).map fun p =>
      p.1 * ((p.2 i - VM.wMean ys r i) * (p.2 j - VM.wMean ys r j))).sum) i j := by
    rw [← conj_mul]
    congr 1
    funext i j
    unfold VM.wCov
    rw [zipWith_eq_map, div_eq_inv_mul]
    simp only [mul_assoc]
  rw [e, ← conj_sum]
  unfold VM.wCov
  rw [wMean_pt hl hr, List.zipWith_map_right, zipWith_eq_map, div_eq_inv_mul]
  congr 2
  apply List.map_congr_left
  intro p _
  rw [conj_mul, conj_outer, lin_sub, lin_sub, mul_assoc]

theorem varPsi_pt (h : g.Rigid) (h1 : g.KeepsOnes) {ys : List (Fin m → K)} {r : List K} (hl : r.length = ys.length) (hr : r.sum ≠ 0) (q : NIW K m) :
    VM.varPsi (ys.map g.pt) (g.niw q) r = g.conj (VM.varPsi ys q r) := by
  funext i j
  unfold VM.varPsi
  rw [conj_add, conj_add, wMean_pt hl hr, wCov_pt hl hr]
  have := conj_const h1 (q.lam * r.sum / (q.lam + r.sum) * ∑ k, (VM.wMean ys r k - q.mu k) * (VM.wMean ys r k - q.mu k)) i j
  rw [this]
  simp only [niw, lin_sub]
  rw [lin_dot h]
end Affine

/-- The image of the parameters of a group. -/
def VAtom.move (g : Affine K m) (a : VAtom K m) : VAtom K m := { mu := g.pt a.mu, lam := a.lam, prec := g.conj a.prec, scale := a.scale }

namespace VM

/-- The transformed object. -/
def move (g : Affine K m) (A : Atom → Atom) (s : VM V m Atom) : VM V m Atom :=
  { s with gm := GM.move g A 0 s.gm, varTheta := s.varTheta.map (Option.map (VAtom.move g)) }

/-- The draws of starting parameters follow the map. -/
structure VMoved (g : Affine K m) (F F' : VWorld K m) : Prop where
  fn : F'.toMathFun = F.toMathFun
  tol : F'.tol = F.tol
  niw : ∀ p q, F'.niw p (g.niw q) = (g.pt (F.niw p q).1, g.conj (F.niw p q).2)

/-- There are as many responsibilities as data, none negative. -/
def Cols (s : VM V m Atom) : Prop := s.varD.length = s.gm.y.length ∧ ∀ c ∈ s.varD, ∀ x, Fl.fin x ∈ c → 0 ≤ x

variable {g : Affine K m} {A : Atom → Atom} {W W' : World K m Atom} {F : MathFun K}

theorem numbers_mem : ∀ {row : List (Fl K)} {r : List K}, Fl.numbers row = some r → r.length = row.length ∧ ∀ x ∈ r, Fl.fin x ∈ row
  | [], r, h => by cases h; exact ⟨rfl, fun x hx => by cases hx⟩
  | .fin y :: row, r, h => by
    rw [Fl.numbers] at h
    cases hn : Fl.numbers row with
    | none => rw [hn] at h; cases h
    | some r' =>
      rw [hn] at h
      cases h
      have := numbers_mem hn
      refine ⟨by simp [this.1], fun x hx => ?_⟩
      rcases List.mem_cons.1 hx with rfl | hx
      · exact List.mem_cons_self
      · exact List.mem_cons_of_mem _ (this.2 x hx)
  | .nan :: _, _, h => by cases h
  | .ninf :: _, _, h => by cases h
  | .pinf :: _, _, h => by cases h

/-- A row of responsibilities without negative numbers. -/
def GoodRow (n : ℕ) (row : List (Fl K)) : Prop := row.length = n ∧ ∀ x, Fl.fin x ∈ row → 0 ≤ x

theorem varRows_good {s : VM V m Atom} (h : Cols s) : ∀ row ∈ varRows s, GoodRow s.gm.y.length row := by
  intro row hrow
  obtain ⟨j, _, rfl⟩ := List.mem_map.1 hrow
  refine ⟨by rw [List.length_map]; exact h.1, fun x hx => ?_⟩
  obtain ⟨c, hc, hcx⟩ := List.mem_map.1 hx
  cases hj : c[j]? with
  | none => rw [hj] at hcx; cases hcx
  | some z =>
    rw [hj] at hcx
    simp only [Option.getD_some] at hcx
    subst hcx
    exact h.2 c hc x (List.mem_of_getElem? hj)

theorem varAtom_move (h : g.Rigid) (h1 : g.KeepsOnes) {ys : List (Fin m → K)} {q : NIW K m} (hq : 0 < q.lam) {row : List (Fl K)}
    (hr : GoodRow ys.length row) : varAtom (ys.map g.pt) (g.niw q) row = (varAtom ys q row).map (Option.map (VAtom.move g)) := by
  unfold varAtom
  cases hn : Fl.numbers row with
  | none => rfl
  | some r =>
    simp only []
    split
    · rfl
    · rename_i hs
      obtain ⟨hl, hm⟩ := numbers_mem hn
      have hl' : r.length = ys.length := hl.trans hr.1
      have hpos : q.lam + r.sum ≠ 0 := (add_pos_of_pos_of_nonneg hq (List.sum_nonneg fun x hx => hr.2 x (hm x hx))).ne'
      rw [Affine.varPsi_pt h h1 hl' hs, h.matInv]
      cases matInv (varPsi ys q r) with
      | error e => rfl
      | ok P =>
        refine congrArg (fun a => Except.ok (some a)) ?_
        rw [Affine.wMean_pt hl' hs]
        simp only [VAtom.move, Affine.niw, VAtom.mk.injEq, and_true]
        exact Affine.mix_pt g hpos _ _

theorem varAtoms_move (h : g.Rigid) (h1 : g.KeepsOnes) {ys : List (Fin m → K)} {q : NIW K m} (hq : 0 < q.lam) : ∀ {rows : List (List (Fl K))},
    (∀ row ∈ rows, GoodRow ys.length row) → varAtoms (ys.map g.pt) (g.niw q) rows = (varAtoms ys q rows).map (List.map (Option.map (VAtom.move g)))
  | [], _ => rfl
  | row :: rows, hr => by
    rw [varAtoms, varAtoms, varAtom_move h h1 hq (hr row (by simp)), varAtoms_move h h1 hq (fun r hr' => hr r (by simp [hr']))]
    cases varAtom ys q row with
    | error e => rfl
    | ok a => cases varAtoms ys q rows <;> rfl

theorem eLogNormWishart_move (h : g.Rigid) (P : Fin m → Fin m → K) (nu : K) : eLogNormWishart F (g.conj P) nu = eLogNormWishart F P nu := by
  unfold eLogNormWishart; rw [Affine.frob_conj h]

theorem logWishartNorm_move (h : g.Rigid) (P : Fin m → Fin m → K) (nu : K) : logWishartNorm F (g.conj P) nu = logWishartNorm F P nu := by
  unfold logWishartNorm; rw [Affine.frob_conj h]

theorem entropyWishart_move (h : g.Rigid) (P : Fin m → Fin m → K) (nu : K) : entropyWishart F (g.conj P) nu = entropyWishart F P nu := by
  unfold entropyWishart; rw [logWishartNorm_move h, eLogNormWishart_move h]

theorem atomScore_move (h : g.Rigid) (x : Fin m → K) (a : Option (VAtom K m)) : atomScore F (g.pt x) (a.map (VAtom.move g)) = atomScore F x a := by
  cases a with
  | none => rfl
  | some a => simp only [Option.map_some, atomScore, VAtom.move, eLogNormWishart_move h, Affine.quad_conj h]

theorem mapScore_move (h : g.Rigid) (x : Fin m → K) (a : Option (VAtom K m)) : mapScore F (g.pt x) (a.map (VAtom.move g)) = mapScore F x a := by
  cases a with
  | none => rfl
  | some a => simp only [Option.map_some, mapScore, VAtom.move, eLogNormWishart_move h, Affine.quad_conj h]

theorem scoreColumn_move (h : g.Rigid) (k : ℕ) (lw : List (Fl K)) (as : List (Option (VAtom K m))) (x : Fin m → K) :
    scoreColumn F k lw (as.map (Option.map (VAtom.move g))) (g.pt x) = scoreColumn F k lw as x := by
  unfold scoreColumn
  rw [List.zipWith_map_right, List.length_map]
  simp only [atomScore_move h]

theorem mapColumn_move (h : g.Rigid) (k : ℕ) (lw : List (Fl K)) (as : List (Option (VAtom K m))) (x : Fin m → K) :
    mapColumn F k lw (as.map (Option.map (VAtom.move g))) (g.pt x) = mapColumn F k lw as x := by
  unfold mapColumn
  rw [List.zipWith_map_right, List.length_map]
  simp only [mapScore_move h]

theorem varRows_move (s : VM V m Atom) : varRows (move g A s) = varRows s := rfl

/-! ### Steps -/

/-- What a fit needs of the object. -/
def GoodV (s : VM V m Atom) : Prop := GM.Good 0 0 s.gm

theorem mir_updateVarTheta (h : g.Rigid) (h1 : g.KeepsOnes) {s : VM V m Atom × ℕ} (hs : GoodV s.1) (hc : Cols s.1) :
    Mir ω (move g A) GoodV id updateVarTheta updateVarTheta s := by
  unfold updateVarTheta
  apply Mir.self_bind
  refine Mir.bind (f := List.map (Option.map (VAtom.move g))) (Mir.lift ?_ hs) fun as s1 _ hs1 => Mir.assign rfl hs1
  have := GM.prior_move (g := g) (A := A) (L := 0) hs.mu
  show varAtoms (s.1.gm.y.map g.pt) (GM.prior (GM.move g A 0 s.1.gm)) (varRows s.1) = _
  rw [this]
  exact varAtoms_move h h1 hs.lam (varRows_good hc)

theorem mir_updateVarD (h : g.Rigid) (he : W'.eps = W.eps) {s : VM V m Atom × ℕ} (hs : GoodV s.1) :
    Mir ω (move g A) GoodV id (updateVarD F W) (updateVarD F W') s := by
  unfold updateVarD
  apply Mir.self_bind
  have e : (move g A s.1).varK = s.1.varK := rfl
  have el : (move g A s.1).varTheta.length = s.1.varTheta.length := List.length_map _
  rw [e, el]
  cases s.1.varK with
  | none => exact Mir.raise _ hs
  | some k =>
    refine Mir.ite Iff.rfl (fun _ => Mir.raise _ hs) fun _ => ?_
    refine Mir.bind (f := id) (Mir.lift (except_map_id _).symm hs) fun lw s1 _ hs1 => ?_
    refine Mir.ite Iff.rfl (fun _ => Mir.raise _ hs1) fun _ => Mir.assign ?_ hs1
    have : (move g A s1.1).gm.y.map (fun x => normMax F W'.eps (scoreColumn F k.toNat lw (move g A s1.1).varTheta x)) =
        s1.1.gm.y.map (fun x => normMax F W.eps (scoreColumn F k.toNat lw s1.1.varTheta x)) := by
      show (s1.1.gm.y.map g.pt).map _ = _
      rw [List.map_map, he]
      apply List.map_congr_left
      intro x _
      simp only [Function.comp_apply]
      exact congrArg _ (scoreColumn_move h _ _ _ _)
    simp only [id, this]
    rfl

theorem mir_fitWeights (q : List (List (Fl K))) {s : VM V m Atom × ℕ} (hs : GoodV s.1) :
    Mir ω (move g A) GoodV id (fitWeights q) (fitWeights q) s := by
  unfold fitWeights
  apply Mir.self_bind
  exact Mir.bind (f := id) (Mir.lift (except_map_id _).symm hs) fun r s1 _ hs1 => Mir.assign rfl ⟨hs1.lam, hs1.mu, hs1.len⟩

theorem mir_updateVarW {s : VM V m Atom × ℕ} (hs : GoodV s.1) : Mir ω (move g A) GoodV id updateVarW updateVarW s := by
  unfold updateVarW
  apply Mir.self_bind
  rw [varRows_move]
  exact mir_fitWeights _ hs

/-! ### Responsibilities -/

/-- Not negative, not minus infinity. -/
def NN : Fl K → Prop
  | .fin x => 0 ≤ x
  | .ninf => False
  | _ => True

theorem NN.add {x y : Fl K} (hx : NN x) (hy : NN y) : NN (Fl.add x y) := by
  cases x <;> cases y <;> simp_all [NN, Fl.add]
  exact add_nonneg hx hy

theorem NN.sum {l : List (Fl K)} (h : ∀ x ∈ l, NN x) : NN (Fl.sum l) := by
  unfold Fl.sum
  have : ∀ (l : List (Fl K)) (a : Fl K), NN a → (∀ x ∈ l, NN x) → NN (l.foldl Fl.add a) := by
    intro l
    induction l with
    | nil => intro a ha _; exact ha
    | cons x l ih =>
      intro a ha hl
      exact ih _ (ha.add (hl x (by simp))) fun y hy => hl y (by simp [hy])
  exact this l _ (le_refl (0 : K)) h

theorem NN.div {x y : Fl K} (hx : NN x) (hy : NN y) : ∀ z, Fl.div x y = .fin z → 0 ≤ z := by
  intro z hz
  cases x <;> cases y <;> simp_all [NN, Fl.div]
  · split at hz
    · split at hz
      · cases hz
      · split at hz <;> cases hz
    · cases hz; exact div_nonneg hx hy
  · split at hz <;> cases hz

theorem normMax_nonneg (hF : ∀ x, 0 ≤ F.exp x) {eps : K} (he : 0 ≤ eps) (col : List (Fl K)) : ∀ x, Fl.fin x ∈ normMax F eps col → 0 ≤ x := by
  intro x hx
  have hN : ∀ z ∈ col.map (fun x => Fl.exp F.exp (x - Fl.maximum col) + .fin eps), NN z := by
    intro z hz
    obtain ⟨w, _, rfl⟩ := List.mem_map.1 hz
    refine NN.add ?_ he
    cases hw : (w - Fl.maximum col : Fl K) <;> simp [Fl.exp, NN, hF]
  obtain ⟨z, hz, hzx⟩ := List.mem_map.1 hx
  exact (hN z hz).div (NN.sum hN) x hzx

theorem updateVarD_cols (hF : ∀ x, 0 ≤ F.exp x) (he : 0 ≤ W.eps) (s : VM V m Atom × ℕ) :
    wp ω (updateVarD F W) (fun _ t => Cols t.1 ∧ t.1.gm = s.1.gm) (fun _ _ => True) s := by
  unfold updateVarD
  rw [wp_bind, wp_self]
  cases s.1.varK with
  | none => trivial
  | some k =>
    simp only []
    rw [wp_ite]
    refine ⟨fun _ => trivial, fun _ => ?_⟩
    rw [wp_bind, wp_lift]
    refine ⟨fun lw _ => ?_, fun _ _ => trivial⟩
    rw [wp_ite]
    refine ⟨fun _ => trivial, fun _ => ?_⟩
    rw [wp_assign]
    refine ⟨⟨by simp, fun c hc x hx => ?_⟩, rfl⟩
    obtain ⟨y, _, rfl⟩ := List.mem_map.1 hc
    exact normMax_nonneg hF he _ x hx

theorem fitWeights_cols (q : List (List (Fl K))) (s : VM V m Atom × ℕ) :
    wp ω (fitWeights q) (fun _ t => t.1.varD = s.1.varD ∧ t.1.gm.y = s.1.gm.y) (fun _ _ => True) s := by
  unfold fitWeights
  simp only [wp_bind, wp_self, wp_lift, wp_assign]
  exact ⟨fun r _ => ⟨by trivial, by trivial⟩, fun _ _ => trivial⟩

theorem updateVarW_cols (s : VM V m Atom × ℕ) :
    wp ω updateVarW (fun _ t => t.1.varD = s.1.varD ∧ t.1.gm.y = s.1.gm.y) (fun _ _ => True) s := by
  unfold updateVarW
  rw [wp_bind, wp_self]
  exact fitWeights_cols _ _

theorem updateVarTheta_cols (s : VM V m Atom × ℕ) :
    wp ω updateVarTheta (fun _ t => t.1.varD = s.1.varD ∧ t.1.gm.y = s.1.gm.y) (fun _ _ => True) s := by
  unfold updateVarTheta
  simp only [wp_bind, wp_self, wp_lift, wp_assign]
  exact ⟨fun r _ => ⟨by trivial, by trivial⟩, fun _ _ => trivial⟩

theorem Cols.of_eq {s t : VM V m Atom} (h : Cols s) (e : t.varD = s.varD ∧ t.gm.y = s.gm.y) : Cols t := by
  unfold Cols at h ⊢
  rw [e.1, e.2]; exact h

theorem mir_maximize (h : g.Rigid) (h1 : g.KeepsOnes) (hF : ∀ x, 0 ≤ F.exp x) (he : 0 ≤ W.eps) (hW : W'.eps = W.eps) {s : VM V m Atom × ℕ} (hs : GoodV s.1) :
    Mir ω (move g A) GoodV id (maximize F W) (maximize F W') s := by
  unfold maximize
  refine Mir.bind (mir_updateVarD h hW hs) fun _ s1 e1 hs1 => Mir.bind (mir_updateVarW hs1) fun _ s2 e2 hs2 => ?_
  have c1 := wp_of_ok e1 (updateVarD_cols hF he s)
  exact mir_updateVarTheta h h1 hs2 (c1.1.of_eq (wp_of_ok e2 (updateVarW_cols s1)))

theorem maximize_cols (hF : ∀ x, 0 ≤ F.exp x) (he : 0 ≤ W.eps) (s : VM V m Atom × ℕ) :
    wp ω (maximize F W) (fun _ t => Cols t.1) (fun _ _ => True) s := by
  unfold maximize
  rw [wp_bind]
  refine wp_mono (updateVarD_cols hF he s) (fun _ t1 h1 => ?_) fun _ _ _ => trivial
  rw [wp_bind]
  refine wp_mono (updateVarW_cols t1) (fun _ t2 h2 => ?_) fun _ _ _ => trivial
  exact wp_mono (updateVarTheta_cols t2) (fun _ t3 h3 => (h1.1.of_eq h2).of_eq h3) fun _ _ _ => trivial

/-! ### The bound -/

theorem pxTerm_move (h : g.Rigid) {ys : List (Fin m → K)} {row : List (Fl K)} (hr : GoodRow ys.length row) (a : Option (VAtom K m)) :
    pxTerm F (ys.map g.pt) row (a.map (VAtom.move g)) = pxTerm F ys row a := by
  unfold pxTerm
  cases hn : Fl.numbers row with
  | none => rfl
  | some r =>
    cases a with
    | none => rfl
    | some a =>
      simp only [Option.map_some]
      split
      · rfl
      · rename_i hs
        have hl : r.length = ys.length := (numbers_mem hn).1.trans hr.1
        rw [Affine.wMean_pt hl hs, Affine.wCov_pt hl hs]
        simp only [VAtom.move, eLogNormWishart_move h, Affine.traceMul_conj h, Affine.quad_conj h]

theorem eLogPx_move (h : g.Rigid) {s : VM V m Atom} (hc : Cols s) : eLogPx F (move g A s) = eLogPx F s := by
  unfold eLogPx
  have : List.zipWith (pxTerm F (move g A s).gm.y) (varRows (move g A s)) (move g A s).varTheta =
      List.zipWith (pxTerm F s.gm.y) (varRows s) s.varTheta := by
    show List.zipWith (pxTerm F (s.gm.y.map g.pt)) (varRows s) (s.varTheta.map (Option.map (VAtom.move g))) = _
    rw [List.zipWith_map_right, Affine.zipWith_eq_map, Affine.zipWith_eq_map]
    apply List.map_congr_left
    intro p hp
    exact pxTerm_move h (varRows_good hc _ (List.of_mem_zip hp).1) _
  rw [this]
  rfl

theorem pThetaTerm_move (h : g.Rigid) (q : NIW K m) (a : Option (VAtom K m)) : pThetaTerm F (g.niw q) (a.map (VAtom.move g)) = pThetaTerm F q a := by
  cases a with
  | none => rfl
  | some a => simp only [Option.map_some, pThetaTerm, VAtom.move, Affine.niw, eLogNormWishart_move h, Affine.traceMul_conj h, Affine.quad_conj h]

theorem qThetaTerm_move (h : g.Rigid) (a : Option (VAtom K m)) : qThetaTerm F (a.map (VAtom.move g)) = qThetaTerm F a := by
  cases a with
  | none => rfl
  | some a => simp only [Option.map_some, qThetaTerm, VAtom.move, eLogNormWishart_move h, entropyWishart_move h]

theorem eLogPTheta_move (h : g.Rigid) {s : VM V m Atom} (hs : GoodV s) : eLogPTheta F (move g A s) = eLogPTheta F s := by
  unfold eLogPTheta
  have e : GM.prior (move g A s).gm = g.niw (GM.prior s.gm) := GM.prior_move hs.mu
  have e1 : (g.niw (GM.prior s.gm)).psi = g.conj (GM.prior s.gm).psi := rfl
  have e2 : (move g A s).varTheta = s.varTheta.map (Option.map (VAtom.move g)) := rfl
  rw [e, e1, h.matInv, e2, List.map_map]
  have e3 : pThetaTerm F (g.niw (GM.prior s.gm)) ∘ Option.map (VAtom.move g) = pThetaTerm F (GM.prior s.gm) := funext fun a => pThetaTerm_move h _ a
  rw [e3]
  cases matInv (GM.prior s.gm).psi with
  | error e => rfl
  | ok P =>
    simp only [Except.map, logWishartNorm_move h]
    rfl

theorem eLogQTheta_move (h : g.Rigid) (s : VM V m Atom) : eLogQTheta F (move g A s) = eLogQTheta F s := by
  unfold eLogQTheta
  have e2 : (move g A s).varTheta = s.varTheta.map (Option.map (VAtom.move g)) := rfl
  have e3 : qThetaTerm F ∘ Option.map (VAtom.move g) = qThetaTerm F := funext fun a => qThetaTerm_move h a
  rw [e2, List.map_map, e3]
  rfl

theorem calcElbo_move (h : g.Rigid) {s : VM V m Atom} (hs : GoodV s) (hc : Cols s) : calcElbo F (move g A s) = calcElbo F s := by
  unfold calcElbo
  simp only [eLogPx_move h hc, eLogPTheta_move h hs, eLogQTheta_move h, varRows_move]
  rfl

/-! ### Starts and loop -/

theorem mir_drawAtoms (h : g.Rigid) {F F' : VWorld K m} (hF : VMoved g F F') : ∀ (k : ℕ) {s : VM V m Atom × ℕ}, GoodV s.1 →
    Mir ω (move g A) GoodV id (drawAtoms F k) (drawAtoms F' k) s
  | 0, s, hs => Mir.pure rfl hs
  | k + 1, s, hs => by
    unfold drawAtoms
    apply Mir.self_bind
    have e : GM.prior (move g A s.1).gm = g.niw (GM.prior s.1.gm) := GM.prior_move hs.mu
    rw [e]
    refine Mir.bind (f := fun a => (g.pt a.1, g.conj a.2)) (Mir.draw1 (fun p => hF.niw p _) hs) fun a s1 _ hs1 => ?_
    refine Mir.bind (f := g.conj) (Mir.lift (h.matInv _) hs1) fun P s2 _ hs2 => ?_
    refine Mir.bind (Mir.assign ?_ hs2) fun _ s3 _ hs3 => mir_drawAtoms h hF k hs3
    have e : GM.prior (move g A s2.1).gm = g.niw (GM.prior s2.1.gm) := GM.prior_move hs2.mu
    have e2 : (GM.prior (move g A s2.1).gm).nu = (GM.prior s2.1.gm).nu := by rw [e]; rfl
    rw [e2]
    unfold move
    simp only [List.map_append, List.map_cons, List.map_nil, Option.map_some, VAtom.move]
    rfl

theorem mir_initVar (h : g.Rigid) (h1 : g.KeepsOnes) {F F' : VWorld K m} (hF : VMoved g F F')
    (hW : Moved g A 0 W W') (hk : ∀ p ys k raw, W.kmeans p ys k = .ok raw → raw.length = ys.length) (k : ℤ) (method : VarInit)
    {s : VM V m Atom × ℕ} (hs : GoodV s.1) : Mir ω (move g A) GoodV id (initVar F W k method) (initVar F' W' k method) s := by
  cases method with
  | kmeans =>
    unfold initVar
    refine Mir.bind (Mir.assign rfl hs) fun _ s1 _ hs1 => ?_
    apply Mir.self_bind
    refine Mir.bind (f := id) (Mir.draw1 (fun p => hW.kmeans p _ _) hs1) fun r s2 e2 hs2 => ?_
    refine Mir.bind (f := id) (Mir.lift (except_map_id _).symm hs2) fun raw s3 e3 hs3 => ?_
    refine Mir.ite Iff.rfl (fun _ => Mir.raise _ hs3) fun _ => ?_
    rw [hW.argsort, hF.fn]
    refine Mir.ite Iff.rfl (fun _ => Mir.raise _ hs3) fun _ => ?_
    refine Mir.bind (Mir.assign rfl hs3) fun _ s4 e4 hs4 => ?_
    refine Mir.bind (mir_fitWeights _ hs4) fun _ s5 e5 hs5 => ?_
    have hy2 : s2.1 = s1.1 := by cases e2; rfl
    have hy3 : s3 = s2 := by rw [M.lift_apply] at e3; cases e3; rfl
    have hraw : raw.length = s1.1.gm.y.length := by
      have h2 : r = W.kmeans s1.2 s1.1.gm.y k := by cases e2; rfl
      have h3 : r = .ok raw := by rw [M.lift_apply] at e3; exact congrArg Prod.fst e3
      exact hk _ _ _ _ (h2.symm.trans h3)
    have hc4 : Cols s4.1 := by
      cases e4
      rw [hy3, hy2]
      refine ⟨?_, ?_⟩
      · simp only [List.length_map]
        unfold sizeBiased npInverse
        simp only [List.length_map]
        exact hraw
      · intro c hc x hx
        obtain ⟨i, _, rfl⟩ := List.mem_map.1 hc
        obtain ⟨j, _, hj⟩ := List.mem_map.1 hx
        split at hj <;> cases hj
        · exact zero_le_one
        · exact le_refl _
    have hc5 : Cols s5.1 := hc4.of_eq (wp_of_ok e5 (fitWeights_cols _ s4))
    refine Mir.bind (mir_updateVarTheta h h1 hs5 hc5) fun _ s6 _ hs6 => ?_
    refine Mir.bind (mir_updateVarD h hW.eps hs6) fun _ s7 _ hs7 => mir_updateVarW hs7
  | random =>
    unfold initVar
    refine Mir.bind (Mir.assign rfl hs) fun _ s1 _ hs1 => Mir.bind (mir_drawAtoms h hF _ hs1) fun _ s2 _ hs2 => ?_
    refine Mir.ite Iff.rfl (fun _ => Mir.raise _ hs2) fun _ => Mir.ite Iff.rfl (fun _ => Mir.raise _ hs2) fun _ => ?_
    refine Mir.bind (Mir.assign ?_ hs2) fun _ s3 _ hs3 => mir_updateVarW hs3
    unfold move GM.move
    simp only [List.map_map, VM.mk.injEq, true_and]
    exact ⟨by trivial, by trivial⟩
  | unknown =>
    unfold initVar
    exact Mir.bind (Mir.assign rfl hs) fun _ s1 _ hs1 => Mir.raise _ hs1

theorem mir_varLoop (h : g.Rigid) (h1 : g.KeepsOnes) (hx : ∀ x, 0 ≤ F.exp x) (he : 0 ≤ W.eps) (hW : W'.eps = W.eps) (tol : Fl K) :
    ∀ (n : ℕ) (elbo diff : Fl K) (it : ℤ) {s : VM V m Atom × ℕ}, GoodV s.1 →
      Mir ω (move g A) GoodV id (varLoop F W tol n elbo diff it) (varLoop F W' tol n elbo diff it) s
  | 0, _, _, _, s, hs => Mir.raise _ hs
  | n + 1, elbo, diff, it, s, hs => by
    unfold varLoop
    apply Mir.self_bind
    refine Mir.ite Iff.rfl (fun _ => ?_) fun _ => Mir.pure rfl hs
    refine Mir.bind (mir_maximize h h1 hx he hW hs) fun _ s1 e1 hs1 => ?_
    apply Mir.self_bind
    rw [calcElbo_move h hs1 (wp_of_ok e1 (maximize_cols hx he s))]
    refine Mir.bind (f := id) (Mir.lift (except_map_id _).symm hs1) fun e s2 _ hs2 => ?_
    exact mir_varLoop h h1 hx he hW tol n _ _ _ hs2

theorem onGM_eq {α : Type} (x : M K (GM C m Atom) α) (s : VM V m Atom × ℕ) :
    onGM x ω s = ((x ω (s.1.gm, s.2)).1, ({ s.1 with gm := (x ω (s.1.gm, s.2)).2.1 }, (x ω (s.1.gm, s.2)).2.2)) := rfl

theorem mir_initCommonV (y : YArg K m) {s : VM V m Atom × ℕ} (hy : ∀ ys, y = .rows ys → ys ≠ [] ∨ s.1.gm.muPrior.isSome = true) (hs : 0 < s.1.gm.lam) :
    Mir ω (move g A) (fun s => 0 < s.gm.lam) id (onGM (GM.initCommon y)) (onGM (GM.initCommon (GM.YArg.move g y))) s ∧
    ∀ a t, onGM (GM.initCommon y) ω s = (.ok a, t) → GoodV t.1 := by
  have h0 : (GM.initCommon (GM.YArg.move g y) ω (GM.move g A 0 s.1.gm, s.2)).1 = (GM.initCommon y ω (s.1.gm, s.2)).1 ∧
      (GM.initCommon (GM.YArg.move g y) ω (GM.move g A 0 s.1.gm, s.2)).2 =
        (GM.move g A 0 (GM.initCommon y ω (s.1.gm, s.2)).2.1, (GM.initCommon y ω (s.1.gm, s.2)).2.2) ∧
      0 < (GM.initCommon y ω (s.1.gm, s.2)).2.1.lam ∧
      (∀ a, (GM.initCommon y ω (s.1.gm, s.2)).1 = .ok a → GM.Good 0 0 (GM.initCommon y ω (s.1.gm, s.2)).2.1) := by
    by_cases hn : ∀ ys, y = .rows ys → ys ≠ []
    · exact GM.mir_initCommon (ω := ω) (g := g) (A := A) (κ := 0) (L := 0) y hn (fun _ _ => mul_zero _) (s := (s.1.gm, s.2)) hs
    · cases y with
      | invalid => exact absurd (fun ys h => by cases h) hn
      | rows ys =>
        have hm : s.1.gm.muPrior.isSome = true := by
          rcases hy ys rfl with h | h
          · exact absurd (fun ys' h' => by cases h'; exact h) hn
          · exact h
        refine ⟨rfl, ?_, hs, fun _ _ => ⟨hs, rfl, mul_zero _⟩⟩
        simp only [GM.initCommon, GM.YArg.move, M.assign_apply, GM.move]
        rw [Affine.cov_pt]
        rcases h : s.1.gm.muPrior with _ | mu
        · rw [h] at hm; cases hm
        · cases s.1.gm.psiPrior <;> rfl
  obtain ⟨h1, h2, h3, h4⟩ := h0
  refine ⟨⟨?_, h3⟩, ?_⟩
  · rw [onGM_eq, onGM_eq, except_map_id]
    have e : ((move g A s.1, s.2).1.gm, (move g A s.1, s.2).2) = (GM.move g A 0 s.1.gm, s.2) := rfl
    rw [e, h1, h2]
    rfl
  · intro a t ht
    have e1 : (GM.initCommon y ω (s.1.gm, s.2)).1 = .ok a := congrArg Prod.fst ht
    have e2 : (GM.initCommon y ω (s.1.gm, s.2)).2.1 = t.1.gm := congrArg (fun z => z.2.1.gm) ht
    have := h4 a e1
    rw [e2] at this
    exact this

theorem weaken {α β : Type} {f : α → β} {x : M K (VM V m Atom) α} {y : M K (VM V m Atom) β} {s : VM V m Atom × ℕ}
    (h : Mir ω (move g A) GoodV f x y s) : Mir ω (move g A) (fun s => 0 < s.gm.lam) f x y s := ⟨h.1, h.2.lam⟩

theorem mir_fitVariational (h : g.Rigid) (h1 : g.KeepsOnes) {F F' : VWorld K m} (hF : VMoved g F F') (hx : ∀ x, 0 ≤ F.exp x) (he : 0 ≤ W.eps)
    (hW : Moved g A 0 W W') (hk : ∀ p ys k raw, W.kmeans p ys k = .ok raw → raw.length = ys.length)
    (y : YArg K m) (nGroups : Option ℤ) (warm : Bool) (tol : Fl K) (method : VarInit) {s : VM V m Atom × ℕ}
    (hy : ∀ ys, y = .rows ys → ys ≠ [] ∨ s.1.gm.muPrior.isSome = true) (hs : 0 < s.1.gm.lam) :
    Mir ω (move g A) (fun s => 0 < s.gm.lam) id (fitVariational F W y nGroups warm tol method)
      (fitVariational F' W' (GM.YArg.move g y) nGroups warm tol method) s ∧
    ((∃ ys, y = .rows ys) → GoodV (fitVariational F W y nGroups warm tol method ω s).2.1) := by
  obtain ⟨m1, m2⟩ := mir_initCommonV (ω := ω) (g := g) (A := A) y hy hs
  have key : ∀ s1 : VM V m Atom × ℕ, GoodV s1.1 → Mir ω (move g A) GoodV id (do
      M.whenM (warm = false) do
        let s ← M.self
        match nGroups, s.gm.nAttr with
        | some k, _ => initVar F W k method
        | none, some n => initVar F W n method
        | none, none => M.raise .attributeError
      let s ← M.self
      let it ← varLoop F.toMathFun W tol (s.gm.totalIter.toNat + 1) .ninf .pinf 0
      M.assign (fun s => { s with
          varFitted := true
          varConverged := s.varConverged || decide (it < s.gm.totalIter) }) : M K (VM V m Atom) Unit) (do
      M.whenM (warm = false) do
        let s ← M.self
        match nGroups, s.gm.nAttr with
        | some k, _ => initVar F' W' k method
        | none, some n => initVar F' W' n method
        | none, none => M.raise .attributeError
      let s ← M.self
      let it ← varLoop F'.toMathFun W' tol (s.gm.totalIter.toNat + 1) .ninf .pinf 0
      M.assign (fun s => { s with
          varFitted := true
          varConverged := s.varConverged || decide (it < s.gm.totalIter) }) : M K (VM V m Atom) Unit) s1 := by
    intro s1 hs1
    refine Mir.bind (f := id) (Mir.whenM hs1 ?_) fun _ s2 _ hs2 => ?_
    · apply Mir.self_bind
      have e : (move g A s1.1).gm.nAttr = s1.1.gm.nAttr := rfl
      rw [e]
      cases nGroups with
      | some k => exact mir_initVar h h1 hF hW hk k method hs1
      | none =>
        cases s1.1.gm.nAttr with
        | some n => exact mir_initVar h h1 hF hW hk n method hs1
        | none => exact Mir.raise _ hs1
    · apply Mir.self_bind
      rw [hF.fn]
      exact Mir.bind (mir_varLoop h h1 hx he hW.eps tol _ _ _ _ hs2) fun it s3 _ hs3 => Mir.assign rfl ⟨hs3.lam, hs3.mu, hs3.len⟩
  constructor
  · unfold fitVariational
    exact Mir.bind m1 fun u s1 e1 _ => weaken (key s1 (m2 u s1 e1))
  · rintro ⟨ys, rfl⟩
    unfold fitVariational
    rw [M.bind_apply]
    rcases hi : onGM (GM.initCommon (YArg.rows ys)) ω s with ⟨e | u, s1⟩
    · exact absurd (congrArg Prod.fst hi) (by intro hc; cases hc)
    · exact (key s1 (m2 u s1 hi)).2

/-! ### The Gibbs sampler -/

theorem mir_onGM {α β : Type} {f : α → β} {x : M K (GM C m Atom) α} {y : M K (GM C m Atom) β} {s : VM V m Atom × ℕ}
    (h : Mir ω (GM.move g A 0) (GM.Good 0 0) f x y (s.1.gm, s.2)) : Mir ω (move g A) GoodV f (onGM x) (onGM y) s := by
  refine ⟨?_, h.2⟩
  rw [onGM_eq, onGM_eq]
  have e : ((move g A s.1, s.2).1.gm, (move g A s.1, s.2).2) = (GM.move g A 0 s.1.gm, s.2) := rfl
  rw [e, h.1]
  rfl

theorem mir_startGibbs (hW : Moved g A 0 W W') (ig : PySize) {s : GM C m Atom × ℕ} (h : GM.Good 0 0 s.1) :
    Mir ω (GM.move g A 0) (GM.Good 0 0) id (startGibbs W ig) (startGibbs W' ig) s := by
  unfold startGibbs
  refine Mir.bind (Mir.assign (GM.wipe_move s.1) ⟨h.lam, h.mu, h.len⟩) fun _ s1 _ h1 => ?_
  apply Mir.self_bind
  have e : (GM.move g A 0 s1.1).y.length = s1.1.y.length := List.length_map _
  rw [e]
  refine Mir.bind (f := id) (Mir.draws (fun p => by rw [hW.unif, hW.eps]) _ h1) fun us s2 _ h2 => ?_
  refine Mir.bind (Mir.assign rfl ⟨h2.lam, h2.mu, h2.len⟩) fun _ s3 _ h3 => ?_
  exact GM.mir_initWeights hW ig h3

/-! ### Result methods -/

/-- Transformed query points. -/
def YQuery.move (g : Affine K m) : YQuery K m → YQuery K m
  | .none => .none
  | .array ys => .array (ys.map g.pt)
  | .list ys => .list (ys.map g.pt)
  | .invalid => .invalid

theorem varMapCluster_move (h : g.Rigid) (hW : W'.eps = W.eps) (s : VM V m Atom) (y : YQuery K m) (full : Bool) :
    varMapCluster F W' (move g A s) (YQuery.move g y) full = varMapCluster F W s y full := by
  have key : ∀ ys : List (Fin m → K), ∀ lw, (ys.map g.pt).map (fun x => normMean F W'.eps (mapColumn F (s.varK.getD 0).toNat lw (move g A s).varTheta x)) =
      ys.map (fun x => normMean F W.eps (mapColumn F (s.varK.getD 0).toNat lw s.varTheta x)) := by
    intro ys lw
    rw [List.map_map, hW]
    apply List.map_congr_left
    intro x _
    exact congrArg (normMean F W.eps) (mapColumn_move h _ _ _ _)
  have el : (move g A s).varTheta.length = s.varTheta.length := List.length_map _
  unfold varMapCluster
  cases y with
  | none => rfl
  | invalid => rfl
  | array ys =>
    simp only [YQuery.move, el]
    simp only [show (move g A s).varK = s.varK from rfl, show (move g A s).varFitted = s.varFitted from rfl, show (move g A s).vst = s.vst from rfl,
      show (move g A s).gm.wst = s.gm.wst from rfl, key]
  | list ys =>
    simp only [YQuery.move, el]
    simp only [show (move g A s).varK = s.varK from rfl, show (move g A s).varFitted = s.varFitted from rfl, show (move g A s).vst = s.vst from rfl,
      show (move g A s).gm.wst = s.gm.wst from rfl, key]

theorem varAffinity_move (h : g.Rigid) (hW : W'.eps = W.eps) (s : VM V m Atom) (y : YQuery K m) :
    varAffinity F W' (move g A s) (YQuery.move g y) = varAffinity F W s y := by
  have key : ∀ ys : List (Fin m → K), ∀ lw, (ys.map g.pt).map (fun x => normMax F W'.eps (scoreColumn F (s.varK.getD 0).toNat lw (move g A s).varTheta x)) =
      ys.map (fun x => normMax F W.eps (scoreColumn F (s.varK.getD 0).toNat lw s.varTheta x)) := by
    intro ys lw
    rw [List.map_map, hW]
    apply List.map_congr_left
    intro x _
    exact congrArg (normMax F W.eps) (scoreColumn_move h _ _ _ _)
  have el : (move g A s).varTheta.length = s.varTheta.length := List.length_map _
  unfold varAffinity newColumns
  cases y with
  | none => rfl
  | invalid => rfl
  | list ys => rfl
  | array ys =>
    simp only [YQuery.move, el]
    simp only [show (move g A s).varK = s.varK from rfl, show (move g A s).varFitted = s.varFitted from rfl, show (move g A s).vst = s.vst from rfl,
      show (move g A s).gm.wst = s.gm.wst from rfl, key]

theorem mir_startLabels (h : g.Rigid) (h1 : g.KeepsOnes) {F F' : VWorld K m} (hF : VMoved g F F') (hx : ∀ x, 0 ≤ F.exp x) (he : 0 ≤ W.eps)
    (hW : Moved g A 0 W W') (hk : ∀ p ys k raw, W.kmeans p ys k = .ok raw → raw.length = ys.length) (ig : PySize) (method : InitMethod)
    {s : VM V m Atom × ℕ} (hs : GoodV s.1) : Mir ω (move g A) GoodV id (startLabels F W ig method) (startLabels F' W' ig method) s := by
  cases method with
  | variational =>
    unfold startLabels
    apply Mir.self_bind
    obtain ⟨m1, m2⟩ := mir_fitVariational (ω := ω) h h1 hF hx he hW hk (.rows s.1.gm.y) (some ((C.getW s.1.gm.wst.1).length : ℤ)) false (.fin F.tol) .kmeans
      (s := s) (fun _ _ => Or.inr hs.mu) hs.lam
    rw [hF.tol]
    refine Mir.bind ⟨m1.1, m2 ⟨_, rfl⟩⟩ fun _ s1 _ hs1 => ?_
    apply Mir.self_bind
    rw [hF.fn]
    have e := varMapCluster_move (F := F.toMathFun) (A := A) h hW.eps s1.1 .none false
    rw [show YQuery.move g (.none : YQuery K m) = .none from rfl] at e
    rw [e]
    refine Mir.bind (f := id) (Mir.lift (except_map_id _).symm hs1) fun r s2 _ hs2 => ?_
    cases r with
    | labels d => exact Mir.pure rfl hs2
    | withVector d u => exact Mir.raise _ hs2
    | withMatrix d q => exact Mir.raise _ hs2
  | kmeans => unfold startLabels; exact mir_onGM (GM.mir_initLabels hW ig _ hs)
  | random => unfold startLabels; exact mir_onGM (GM.mir_initLabels hW ig _ hs)
  | unknown => unfold startLabels; exact mir_onGM (GM.mir_initLabels hW ig _ hs)

theorem mir_fitGibbs (h : g.Rigid) (h1 : g.KeepsOnes) {F F' : VWorld K m} (hF : VMoved g F F') (hx : ∀ x, 0 ≤ F.exp x) (he : 0 ≤ W.eps)
    (hW : Moved g A 0 W W') (hk : ∀ p ys k raw, W.kmeans p ys k = .ok raw → raw.length = ys.length) (y : YArg K m) (ig : PySize) (warm : Bool)
    (method : InitMethod) {s : VM V m Atom × ℕ} (hy : ∀ ys, y = .rows ys → ys ≠ [] ∨ s.1.gm.muPrior.isSome = true) (hs : 0 < s.1.gm.lam) :
    Mir ω (move g A) (fun s => 0 < s.gm.lam) id (fitGibbs F W y ig warm method) (fitGibbs F' W' (GM.YArg.move g y) ig warm method) s := by
  obtain ⟨m1, m2⟩ := mir_initCommonV (ω := ω) (g := g) (A := A) y hy hs
  unfold fitGibbs
  refine Mir.bind m1 fun u s1 e1 _ => ?_
  have hs1 := m2 u s1 e1
  apply weaken
  refine Mir.bind (f := id) (Mir.whenM hs1 ?_) fun _ s2 _ hs2 => ?_
  · refine Mir.bind (mir_onGM (mir_startGibbs hW ig hs1)) fun _ s2 _ hs2 => ?_
    refine Mir.bind (mir_startLabels h h1 hF hx he hW hk ig method hs2) fun d s3 _ hs3 => ?_
    exact Mir.bind (Mir.assign rfl ⟨hs3.lam, hs3.mu, hs3.len⟩) fun _ s4 _ hs4 => mir_onGM (GM.mir_updateMap hW hs4)
  apply Mir.self_bind
  refine Mir.bind (mir_onGM (GM.mir_burn hW _ hs2)) fun _ s3 _ hs3 => ?_
  exact Mir.bind (mir_onGM (GM.mir_record hW _ _ hs3)) fun _ s4 _ hs4 => Mir.assign rfl ⟨hs4.lam, hs4.mu, hs4.len⟩

/-- Transformed arguments of a fit. -/
def Fit.move (g : Affine K m) : Fit K m → Fit K m
  | .gibbs a => .gibbs (GM.FitArgs.move g a)
  | .var y n w t i => .var (GM.YArg.move g y) n w t i

/-- The data of a fit. -/
def Fit.data : Fit K m → YArg K m
  | .gibbs a => a.y
  | .var y _ _ _ _ => y

theorem mir_doFit (h : g.Rigid) (h1 : g.KeepsOnes) {F F' : VWorld K m} (hF : VMoved g F F') (hx : ∀ x, 0 ≤ F.exp x) (he : 0 ≤ W.eps)
    (hW : Moved g A 0 W W') (hk : ∀ p ys k raw, W.kmeans p ys k = .ok raw → raw.length = ys.length) (f : Fit K m) {s : VM V m Atom × ℕ}
    (hy : f.data ≠ .rows []) (hs : 0 < s.1.gm.lam) :
    Mir ω (move g A) (fun s => 0 < s.gm.lam) id (doFit F W f) (doFit F' W' (Fit.move g f)) s := by
  have hy' : ∀ ys, f.data = .rows ys → ys ≠ [] ∨ s.1.gm.muPrior.isSome = true := fun ys e => Or.inl (by rintro rfl; exact hy e)
  cases f with
  | gibbs a => exact mir_fitGibbs h h1 hF hx he hW hk a.y a.initGroups a.warm a.method hy' hs
  | var y n w t i => exact (mir_fitVariational h h1 hF hx he hW hk y n w t i hy' hs).1

theorem runFits_move (h : g.Rigid) (h1 : g.KeepsOnes) {F F' : VWorld K m} (hF : VMoved g F F') (hx : ∀ x, 0 ≤ F.exp x) (he : 0 ≤ W.eps)
    (hW : Moved g A 0 W W') (hk : ∀ p ys k raw, W.kmeans p ys k = .ok raw → raw.length = ys.length) :
    ∀ (ops : List (Fit K m)), (∀ f ∈ ops, f.data ≠ .rows []) → ∀ {s : VM V m Atom × ℕ}, 0 < s.1.gm.lam →
      runFits F' W' ω (move g A s.1, s.2) (ops.map (Fit.move g)) = (move g A (runFits F W ω s ops).1, (runFits F W ω s ops).2)
  | [], _, s, _ => rfl
  | f :: ops, ho, s, hs => by
    have m1 := mir_doFit (ω := ω) h h1 hF hx he hW hk f (ho f (by simp)) hs
    have m2 := runFits_move h h1 hF hx he hW hk ops (fun f hf => ho f (by simp [hf])) m1.2
    unfold runFits at m2 ⊢
    rw [List.map_cons, List.foldl_cons, List.foldl_cons]
    have e : (doFit F' W' (Fit.move g f) ω (move g A s.1, s.2)).2 = (move g A (doFit F W f ω s).2.1, (doFit F W f ω s).2.2) := congrArg Prod.snd m1.1
    rw [e]
    exact m2

/-! ### Densities -/

theorem quad_sum (P : Fin m → Fin m → K) (x mu : Fin m → K) : ∑ i, ∑ j, (x i - mu i) * P i j * (x j - mu j) = quad P x mu := by
  unfold quad
  simp only [Finset.mul_sum, mul_assoc]

theorem studentsT_move (h : g.Rigid) (x mu : Fin m → K) (P : Fin m → Fin m → K) (nu : K) :
    studentsT F (g.pt x) (g.pt mu) (g.conj P) nu = studentsT F x mu P nu := by
  unfold studentsT
  rw [quad_sum, quad_sum, Affine.quad_conj h, Affine.frob_conj h]

theorem normalDensity_move (h : g.Rigid) (x mu : Fin m → K) (P : Fin m → Fin m → K) :
    normalDensity F (g.pt x) (g.pt mu) (g.conj P) = normalDensity F x mu P := by
  unfold normalDensity
  rw [quad_sum, quad_sum, Affine.quad_conj h, Affine.frob_conj h]

theorem components_move (s : VM V m Atom) (c : Option ℕ) :
    components (move g A s) c = (components s c).map (List.map fun p => (p.1, p.2.map (VAtom.move g))) := by
  cases c with
  | none =>
    simp only [components, move, Except.map, List.mapIdx_eq_zipIdx_map, List.zipIdx_map, List.map_map]
    rfl
  | some j =>
    have e : (move g A s).varTheta[j]? = (s.varTheta[j]?).map (Option.map (VAtom.move g)) := List.getElem?_map
    simp only [components, e]
    cases s.varTheta[j]? <;> rfl

theorem densityLoop_move (dm : Except PyErr (Fin m → Fin m)) (f : (Fin m → Fin m) → VAtom K m → (Fin m → K) → K) (w : ℕ → Except PyErr (Fl K))
    (hf : ∀ d, dm = .ok d → ∀ a x, f d (VAtom.move g a) (g.pt x) = f d a x) (xs : List (Fin m → K)) :
    ∀ (as : List (ℕ × Option (VAtom K m))) (acc : List (Fl K)),
      densityLoop dm f w (xs.map g.pt) (as.map fun p => (p.1, p.2.map (VAtom.move g))) acc = densityLoop dm f w xs as acc
  | [], _ => rfl
  | (j, a) :: as, acc => by
    rw [List.map_cons]
    simp only [densityLoop]
    cases hd : dm with
    | error e => rfl
    | ok d =>
      simp only []
      cases w j with
      | error e => rfl
      | ok wj =>
        simp only []
        subst hd
        have ih := densityLoop_move (.ok d) f w hf xs as
        refine (ih _).trans (congrArg (densityLoop (.ok d) f w xs as) (congrArg (List.zipWith (· + ·) acc) ?_))
        rw [List.map_map]
        apply List.map_congr_left
        intro x _
        cases a with
        | none => rfl
        | some a => exact congrArg (Fl.scale · wj) (hf d rfl a x)

/-- Transformed points of a density query. -/
def Points.move (g : Affine K m) : Points K → Points K
  | .own => .own
  | .given c xs => if h : c = m then .given m ((h ▸ xs : List (Fin m → K)).map g.pt) else .given c xs
  | .invalid => .invalid

/-- The points have as many coordinates as the data. -/
def Points.Full (m : ℕ) : Points K → Prop
  | .given c _ => c = m
  | _ => True

theorem points_move (s : VM V m Atom) {y : Points K} (hy : y.Full m) :
    points (move g A s) (Points.move g y) = (points s y).map (fun p => if h : p.1 = m then ⟨m, (h ▸ p.2 : List (Fin m → K)).map g.pt⟩ else p) := by
  cases y with
  | own =>
    simp only [points, Points.move, Except.map, dif_pos]
    rfl
  | invalid => rfl
  | given c xs =>
    obtain rfl : c = m := hy
    simp only [points, Points.move, Except.map, dif_pos]

theorem points_full {s : VM V m Atom} {y : Points K} (hy : y.Full m) {c : ℕ} {xs : List (Fin c → K)} (h : points s y = .ok ⟨c, xs⟩) : c = m := by
  cases y with
  | own => cases h; rfl
  | invalid => cases h
  | given c xs => cases h; exact hy

theorem dimMap_none {d : Fin m → Fin m} (h : dimMap m m .none = .ok d) : d = id := by
  simp only [dimMap, le_refl, dif_pos] at h
  cases h
  rfl

theorem dimMap_range {d : Fin m → Fin m} (h : dimMap m m (.list (List.range m)) = .ok d) : d = id := by
  simp only [dimMap] at h
  split at h
  · split at h
    · cases h
      funext i
      apply Fin.ext
      simp
    · cases h
  · cases h

theorem conj_scaled (P : Fin m → Fin m → K) (a b c : K) :
    (fun i j => g.conj P i j * a * b / c) = g.conj (fun i j => P i j * a * b / c) := by
  funext i j
  simp only [Affine.conj, Finset.sum_mul, div_eq_mul_inv]
  refine Finset.sum_congr rfl fun k _ => Finset.sum_congr rfl fun l _ => ?_
  ring

theorem conj_scaled' (P : Fin m → Fin m → K) (a : K) :
    (fun i j => a * g.conj P i j) = g.conj (fun i j => a * P i j) := by
  funext i j
  simp only [Affine.conj, Finset.mul_sum]
  refine Finset.sum_congr rfl fun k _ => Finset.sum_congr rfl fun l _ => ?_
  ring

theorem varEapDensity_move (h : g.Rigid) (s : VM V m Atom) {y : Points K} (hy : y.Full m) (comp : Option ℕ) :
    varEapDensity F (move g A s) (Points.move g y) .none comp = varEapDensity F s y .none comp := by
  unfold varEapDensity
  rw [points_move s hy, components_move]
  rw [show (move g A s).varFitted = s.varFitted from rfl, show (move g A s).vst = s.vst from rfl, show (move g A s).gm.wst = s.gm.wst from rfl]
  split
  · rfl
  rcases hp : points s y with e | ⟨c, xs⟩
  · rfl
  obtain rfl := points_full hy hp
  simp only [Except.map, dif_pos, reduceCtorEq, if_false]
  cases components s comp with
  | error e => rfl
  | ok as =>
    simp only [List.map_map]
    refine densityLoop_move _ _ _ (fun d hd a x => ?_) xs as _
    cases dimMap_none hd
    simp only [id, VAtom.move]
    rw [conj_scaled]
    exact studentsT_move h x a.mu _ _

theorem varMapDensity_move (h : g.Rigid) (s : VM V m Atom) {y : Points K} (hy : y.Full m) (comp : Option ℕ) :
    varMapDensity F (move g A s) (Points.move g y) (.list (List.range m)) comp = varMapDensity F s y (.list (List.range m)) comp := by
  unfold varMapDensity
  rw [points_move s hy, components_move]
  rw [show (move g A s).varFitted = s.varFitted from rfl, show (move g A s).vst = s.vst from rfl, show (move g A s).gm.wst = s.gm.wst from rfl]
  split
  · rfl
  rcases hp : points s y with e | ⟨c, xs⟩
  · rfl
  obtain rfl := points_full hy hp
  simp only [Except.map, dif_pos, reduceCtorEq, if_false, or_self]
  cases components s comp with
  | error e => rfl
  | ok as =>
    simp only [List.map_map]
    refine densityLoop_move _ _ _ (fun d hd a x => ?_) xs as _
    cases dimMap_range hd
    simp only [id, VAtom.move]
    rw [conj_scaled']
    exact normalDensity_move h x a.mu _
end VM
end Verif.Mix
