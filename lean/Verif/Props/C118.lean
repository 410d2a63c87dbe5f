import Verif.Props.C117

/-!
# C118: densities and the bound in other units

In units of which `1/c` make one old unit (`unit c` of C117) the density of a vector with `m` coordinates is divided by `c ^ m`, and a lower bound of the log-density
of `n` observations falls by `n m log c`.

`var_eap_density` and `var_map_density` are divided by `c`, whatever the number of coordinates: `C118_eap_density_partial` and `C118_map_density_partial` show this
for all similarities.  That is what the claim demands for one coordinate (`C118_line_partial`) and for no other number of coordinates (`C118_density_refuted`).  The
reason is the Frobenius norm in place of a determinant.  The bound grows by `k (m - 1) log c / 2` (`C118_bound`), which never is the change of a bound of the
log-density (`C118_bound_refuted`).
-/

set_option linter.unusedSectionVars false

namespace Verif.Mix.VM
open Matrix
open Fl (plus)

section
variable {K : Type} [Field K] [LinearOrder K] [IsStrictOrderedRing K] {C : WeightClass K} {V : VarClass C} {m : ℕ} {Atom : Type} {ω : Oracle K}
variable {g : Affine K m} {ρ δ : K} {A : Atom → Atom} {W W' : World K m Atom} {F F' : VWorld K m}

theorem resize_components (s : VM V m Atom) (c : Option ℕ) :
    components (resize g ρ A s) c = (components s c).map (List.map fun p => (p.1, p.2.map (VAtom.resize g ρ))) := by
  cases c with
  | none =>
    simp only [components, resize, Except.map, List.mapIdx_eq_zipIdx_map, List.zipIdx_map, List.map_map]
    rfl
  | some j =>
    have e : (resize g ρ A s).varTheta[j]? = (s.varTheta[j]?).map (Option.map (VAtom.resize g ρ)) := List.getElem?_map
    simp only [components, e]
    cases s.varTheta[j]? <;> rfl

theorem fl_scale_add {a : K} (ha : a ≠ 0) (x y : Fl K) : Fl.scale a (x + y) = Fl.scale a x + Fl.scale a y := by
  rcases lt_or_gt_of_ne ha with h | h
  · have h' := not_lt.2 h.le
    cases x <;> cases y <;> simp [Fl.scale, ha, h', HAdd.hAdd, Add.add, Fl.add]
    exact mul_add _ _ _
  · cases x <;> cases y <;> simp [Fl.scale, ha, h, HAdd.hAdd, Add.add, Fl.add]
    exact mul_add _ _ _

theorem fl_scale_scale {a b : K} (ha : 0 < a) (x : Fl K) : Fl.scale a (Fl.scale b x) = Fl.scale (a * b) x := by
  have h1 : 0 < a * b ↔ 0 < b := mul_pos_iff_of_pos_left ha
  have h2 : a * b = 0 ↔ b = 0 := by simp [ha.ne']
  cases x with
  | fin x => simp [Fl.scale, mul_assoc]
  | nan => rfl
  | ninf =>
    show Fl.scale a (if b = 0 then Fl.nan else if 0 < b then Fl.ninf else Fl.pinf) = if a * b = 0 then Fl.nan else if 0 < a * b then Fl.ninf else Fl.pinf
    simp only [h1, h2]
    split
    · rfl
    · split <;> simp [Fl.scale, ha, ha.ne']
  | pinf =>
    show Fl.scale a (if b = 0 then Fl.nan else if 0 < b then Fl.pinf else Fl.ninf) = if a * b = 0 then Fl.nan else if 0 < a * b then Fl.pinf else Fl.ninf
    simp only [h1, h2]
    split
    · rfl
    · split <;> simp [Fl.scale, ha, ha.ne']

theorem densityLoop_resize {r : K} (hr : 0 < r) (dm : Except PyErr (Fin m → Fin m)) (f : (Fin m → Fin m) → VAtom K m → (Fin m → K) → K)
    (w : ℕ → Except PyErr (Fl K)) (hf : ∀ d, dm = .ok d → ∀ a x, f d (VAtom.resize g ρ a) (g.pt x) = r * f d a x) (xs : List (Fin m → K)) :
    ∀ (as : List (ℕ × Option (VAtom K m))) (acc : List (Fl K)),
      densityLoop dm f w (xs.map g.pt) (as.map fun p => (p.1, p.2.map (VAtom.resize g ρ))) (acc.map (Fl.scale r)) =
        (densityLoop dm f w xs as acc).map (List.map (Fl.scale r))
  | [], _ => rfl
  | (j, a) :: as, acc => by
    rw [List.map_cons]
    simp only [densityLoop]
    cases hd : dm with
    | error e => rfl
    | ok d =>
      simp only []
      cases w j with
      | error e => rfl
      | ok wj =>
        simp only []
        subst hd
        rw [← densityLoop_resize hr (.ok d) f w hf xs as]
        refine congrArg (densityLoop (.ok d) f w (xs.map g.pt) _) ?_
        rw [List.map_zipWith, List.zipWith_map_left, List.map_map, List.zipWith_map_right, List.zipWith_map_right]
        congr 1
        funext b x
        rw [fl_scale_add hr.ne']
        congr 1
        cases a with
        | none => rfl
        | some a =>
          simp only [Function.comp_apply, Option.map_some]
          rw [hf d rfl a x, fl_scale_scale hr]
end

section
variable {C : WeightClass ℝ} {V : VarClass C} {m : ℕ} {Atom : Type} {ω : Oracle ℝ} {g : Affine ℝ m} {ρ : ℝ} {A : Atom → Atom} {W : World ℝ m Atom}

/-- The bound after a round, in units of which `1/c` make one old unit: with `k` groups it is larger by `k (m - 1) log c / 2`. -/
theorem C118_bound {c : ℝ} (hc : 0 < c) {s : VM V m Atom} {k : ℤ} (hl : 0 < s.gm.lam) (hm : s.gm.muPrior.isSome = true)
    (hn : s.varD.length = s.gm.y.length) (hd : ∀ r ∈ s.varD, ∀ x, Fl.fin x ∈ r → 0 ≤ x) (hk : 0 ≤ k) (hv : s.varK = some k)
    (ht : s.varTheta.length = k.toNat) :
    calcElbo realFun (resize (unit c) (c ^ 2) A s) = (calcElbo realFun s).map (fun e => e + .fin ((k : ℝ) * (m - 1) / 2 * Real.log c)) := by
  have := calcElbo_sim (A := A) (unit_similar (m := m) hc.ne') (scales_real (by positivity)) (s := s) (k := k) ⟨hl, hm, mul_zero _⟩ ⟨hn, hd⟩ ⟨hk, hv, ht⟩
  rw [this]
  have e : unitShift m (Real.log (c ^ 2)) k = (k : ℝ) * (m - 1) / 2 * Real.log c := by
    unfold unitShift
    rw [Real.log_pow]
    push_cast
    ring
  rw [e]
  rfl

/-- A lower bound of the log-density of `n` observations with `m` coordinates falls by `n m log c`.  This one never does. -/
theorem C118_bound_refuted {c : ℝ} (hc : 1 < c) {s : VM V m Atom} {k : ℤ} (hl : 0 < s.gm.lam) (hm : s.gm.muPrior.isSome = true)
    (hn : s.varD.length = s.gm.y.length) (hd : ∀ r ∈ s.varD, ∀ x, Fl.fin x ∈ r → 0 ≤ x) (hk : 0 ≤ k) (hv : s.varK = some k)
    (ht : s.varTheta.length = k.toNat) (hm0 : 0 < m) (hy : s.gm.y ≠ []) {e : ℝ} (he : calcElbo realFun s = .ok (.fin e)) :
    calcElbo realFun (resize (unit c) (c ^ 2) A s) ≠ .ok (.fin (e - s.gm.y.length * m * Real.log c)) := by
  rw [C118_bound (by linarith) hl hm hn hd hk hv ht, he]
  intro h
  have h0 : e + (k : ℝ) * (m - 1) / 2 * Real.log c = e - s.gm.y.length * m * Real.log c := by
    have : (Except.ok (Fl.fin (e + (k : ℝ) * (m - 1) / 2 * Real.log c)) : Except PyErr (Fl ℝ)) = .ok (.fin (e - s.gm.y.length * m * Real.log c)) := h
    injection this with this
    injection this
  have h1 := Real.log_pos hc
  have h2 : (1 : ℝ) ≤ m := by exact_mod_cast hm0
  have h3 : (1 : ℝ) ≤ s.gm.y.length := by exact_mod_cast List.length_pos_iff.2 hy
  have h4 : (0 : ℝ) ≤ k := by exact_mod_cast hk
  have h5 : 0 ≤ (k : ℝ) * (m - 1) / 2 * Real.log c := by
    have : 0 ≤ (m : ℝ) - 1 := by linarith
    positivity
  have h6 : 0 < (s.gm.y.length : ℝ) * m * Real.log c := by positivity
  linarith

theorem studentsT_sim (h : g.Similar ρ) (x mu : Fin m → ℝ) (P : Fin m → Fin m → ℝ) (nu : ℝ) :
    studentsT realFun (g.pt x) (g.pt mu) (g.pconj ρ P) nu = (√ρ)⁻¹ * studentsT realFun x mu P nu := by
  unfold studentsT
  rw [quad_sum, quad_sum, Affine.quad_pconj h, frob_sim h (scales_real h.pos)]
  have e : realFun.pow (frob realFun P / ρ) (1 / 2) = realFun.pow (frob realFun P) (1 / 2) * (√ρ)⁻¹ := by
    show (frob realFun P / ρ) ^ ((1 : ℝ) / 2) = frob realFun P ^ ((1 : ℝ) / 2) * (√ρ)⁻¹
    rw [Real.div_rpow (show 0 ≤ frob realFun P from Real.sqrt_nonneg _) h.pos.le, Real.sqrt_eq_rpow, div_eq_mul_inv]
  rw [e]
  ring

theorem normalDensity_sim (h : g.Similar ρ) (x mu : Fin m → ℝ) (P : Fin m → Fin m → ℝ) :
    normalDensity realFun (g.pt x) (g.pt mu) (g.pconj ρ P) = (√ρ)⁻¹ * normalDensity realFun x mu P := by
  unfold normalDensity
  rw [quad_sum, quad_sum, Affine.quad_pconj h, frob_sim h (scales_real h.pos)]
  have e : ∀ a b : ℝ, realFun.sqrt (a * (b / ρ)) = (√ρ)⁻¹ * realFun.sqrt (a * b) := by
    intro a b
    show √(a * (b / ρ)) = (√ρ)⁻¹ * √(a * b)
    rw [← mul_div_assoc, Real.sqrt_div' _ h.pos.le, div_eq_inv_mul]
  rw [e]
  ring

theorem pconj_scaled (P : Fin m → Fin m → ℝ) (a b c : ℝ) :
    (fun i j => g.pconj ρ P i j * a * b / c) = g.pconj ρ (fun i j => P i j * a * b / c) := by
  funext i j
  have : g.conj P i j * a * b / c = g.conj (fun i j => P i j * a * b / c) i j := congrFun (congrFun (conj_scaled (g := g) P a b c) i) j
  unfold Affine.pconj
  rw [← this]
  ring

theorem pconj_scaled' (P : Fin m → Fin m → ℝ) (a : ℝ) : (fun i j => a * g.pconj ρ P i j) = g.pconj ρ (fun i j => a * P i j) := by
  funext i j
  have : a * g.conj P i j = g.conj (fun i j => a * P i j) i j := congrFun (congrFun (conj_scaled' (g := g) P a) i) j
  unfold Affine.pconj
  rw [← this]
  ring

theorem zeros_scale {α : Type} (xs : List α) (a : ℝ) : xs.map (fun _ => (Fl.fin 0 : Fl ℝ)) = (xs.map (fun _ => (Fl.fin 0 : Fl ℝ))).map (Fl.scale a) := by
  rw [List.map_map]
  apply List.map_congr_left
  intro x _
  simp [Fl.scale]

/-- `var_eap_density` at the converted points, for every similarity: the values are divided by `√ρ`. -/
theorem C118_eap_density_partial (h : g.Similar ρ) (s : VM V m Atom) {y : Points ℝ} (hy : y.Full m) (comp : Option ℕ) :
    varEapDensity realFun (resize g ρ A s) (Points.move g y) .none comp = (varEapDensity realFun s y .none comp).map (List.map (Fl.scale (√ρ)⁻¹)) := by
  have hr : 0 < (√ρ)⁻¹ := inv_pos.2 (Real.sqrt_pos.2 h.pos)
  have hp' := points_move (g := g) (A := A) s hy
  have e0 : points (resize g ρ A s) (Points.move g y) = points (move g A s) (Points.move g y) := by cases y <;> rfl
  unfold varEapDensity
  rw [e0, hp', resize_components]
  rw [show (resize g ρ A s).varFitted = s.varFitted from rfl, show (resize g ρ A s).vst = s.vst from rfl, show (resize g ρ A s).gm.wst = s.gm.wst from rfl]
  split
  · rfl
  rcases hp : points s y with e | ⟨c, xs⟩
  · rfl
  obtain rfl := points_full hy hp
  simp only [Except.map, dif_pos, reduceCtorEq, if_false]
  cases components s comp with
  | error e => rfl
  | ok as =>
    simp only [List.map_map]
    have := densityLoop_resize (g := g) (ρ := ρ) hr (dimMap c c .none) (fun d a x => studentsT realFun x (fun i => a.mu (d i))
          (fun i j => a.prec (d i) (d j) * (a.scale + 1 - (c : ℝ)) * a.lam / (1 + a.lam)) (a.scale + 1 - (c : ℝ))) (V.meanW s.gm.wst.1 s.vst)
          (fun d hd a x => by
            cases dimMap_none hd
            simp only [id, VAtom.resize]
            rw [pconj_scaled]
            exact studentsT_sim h x a.mu _ _) xs as (xs.map fun _ => .fin 0)
    rw [← zeros_scale] at this
    exact this

/-- `var_map_density` at the converted points, with all coordinates asked for. -/
theorem C118_map_density_partial (h : g.Similar ρ) (s : VM V m Atom) {y : Points ℝ} (hy : y.Full m) (comp : Option ℕ) :
    varMapDensity realFun (resize g ρ A s) (Points.move g y) (.list (List.range m)) comp =
      (varMapDensity realFun s y (.list (List.range m)) comp).map (List.map (Fl.scale (√ρ)⁻¹)) := by
  have hr : 0 < (√ρ)⁻¹ := inv_pos.2 (Real.sqrt_pos.2 h.pos)
  have hp' := points_move (g := g) (A := A) s hy
  have e0 : points (resize g ρ A s) (Points.move g y) = points (move g A s) (Points.move g y) := by cases y <;> rfl
  unfold varMapDensity
  rw [e0, hp', resize_components]
  rw [show (resize g ρ A s).varFitted = s.varFitted from rfl, show (resize g ρ A s).vst = s.vst from rfl, show (resize g ρ A s).gm.wst = s.gm.wst from rfl]
  split
  · rfl
  rcases hp : points s y with e | ⟨c, xs⟩
  · rfl
  obtain rfl := points_full hy hp
  simp only [Except.map, dif_pos, reduceCtorEq, if_false, or_self]
  cases components s comp with
  | error e => rfl
  | ok as =>
    simp only [List.map_map]
    have e1 : List.map ((fun _ => (Fl.fin 0 : Fl ℝ)) ∘ g.pt) xs = (xs.map (fun _ => (Fl.fin 0 : Fl ℝ))).map (Fl.scale (√ρ)⁻¹) := zeros_scale xs _
    rw [e1]
    refine densityLoop_resize (g := g) (ρ := ρ) hr (dimMap c c (.list (List.range c))) _ _ (fun d hd a x => ?_) xs as (xs.map fun _ => .fin 0)
    cases dimMap_range hd
    simp only [id, VAtom.resize]
    rw [pconj_scaled']
    exact normalDensity_sim h x a.mu _

/-- The values of a density of vectors with `m` coordinates are divided by `c ^ m` in units of which `1/c` make one old unit; those of `var_eap_density` are
divided by `c`.  As soon as one of them is a number other than zero the two agree only for one coordinate. -/
theorem C118_density_refuted {c : ℝ} (hc : 1 < c) (s : VM V m Atom) {y : Points ℝ} (hy : y.Full m) (comp : Option ℕ) {l : List (Fl ℝ)}
    (hl : varEapDensity realFun s y .none comp = .ok l) {x : ℝ} (hx : x ≠ 0) (hm : Fl.fin x ∈ l) :
    varEapDensity realFun (resize (unit c) (c ^ 2) A s) (Points.move (unit (m := m) c) y) .none comp = .ok (l.map (Fl.scale (c ^ m)⁻¹)) ↔ m = 1 := by
  rw [C118_eap_density_partial (unit_similar (by linarith)) s hy, hl, Real.sqrt_sq (by linarith)]
  constructor
  · intro h
    have h1 : l.map (Fl.scale c⁻¹) = l.map (Fl.scale (c ^ m)⁻¹) := by
      have : (Except.ok (l.map (Fl.scale c⁻¹)) : Except PyErr (List (Fl ℝ))) = .ok (l.map (Fl.scale (c ^ m)⁻¹)) := h
      injection this
    have h2 := List.map_inj_left.1 h1 _ hm
    simp only [Fl.scale, Fl.fin.injEq, mul_eq_mul_right_iff, hx, or_false, _root_.inv_inj] at h2
    have : c ^ 1 = c ^ m := by rw [pow_one]; exact h2
    exact (pow_right_injective₀ (by linarith) hc.ne' this).symm
  · rintro rfl
    rw [pow_one]
    rfl

/-- For one coordinate both methods are converted as densities are. -/
theorem C118_line_partial {A : Atom → Atom} {c : ℝ} (hc : 0 < c) (s : VM V 1 Atom) {y : Points ℝ} (hy : y.Full 1) (comp : Option ℕ) :
    varEapDensity realFun (resize (unit c) (c ^ 2) A s) (Points.move (unit (m := 1) c) y) .none comp =
      (varEapDensity realFun s y .none comp).map (List.map (Fl.scale (c ^ 1)⁻¹)) ∧
    varMapDensity realFun (resize (unit c) (c ^ 2) A s) (Points.move (unit (m := 1) c) y) (.list [0]) comp =
      (varMapDensity realFun s y (.list [0]) comp).map (List.map (Fl.scale (c ^ 1)⁻¹)) := by
  have h := unit_similar (m := 1) hc.ne'
  have e1 := C118_eap_density_partial (A := A) h s hy comp
  have e2 := C118_map_density_partial (A := A) h s hy comp
  rw [Real.sqrt_sq hc.le] at e1 e2
  rw [pow_one]
  exact ⟨e1, e2⟩
end

/-! ### The hypotheses are met -/

/-- A fitted object with one group of two coordinates. -/
noncomputable def planeObj : VM (varEqual realFun) 2 ℝ :=
  { gm := { totalIter := 1, burnIn := 0, subsample := 1, nAttr := some 1, muPrior := some (fun _ => 0), lam := 1, psiPrior := some (fun i j => if i = j then 1 else 0),
            nuPrior := some 2, y := [fun _ => 0], d := [], theta := [], thetaDefault := false, u := [], affinity := [], mapParams := none, mapLL := ⊥, saved := [],
            nGroups := [], nAtoms := [], totalSaved := 0, gibbsFitted := false, wst := ((Equal.init 1 : Equal ℝ), 0) }
    vst := true, varK := some 1, varTheta := [some { mu := fun _ => 0, lam := 2, prec := fun i j => if i = j then 1 else 0, scale := 3 }],
    varD := [[.fin 1]], varFitted := true, varConverged := true }

/-- The density of the plane object at its centre is a number other than zero. -/
theorem planeObj_density : ∃ l, ∃ x : ℝ, x ≠ 0 ∧ Fl.fin x ∈ l ∧ varEapDensity realFun planeObj (.given 2 [fun _ => 0]) .none none = .ok l := by
  refine ⟨[.fin _], 0 + (studentsT realFun (fun _ : Fin 2 => 0) (fun _ => 0) (fun i j => (if i = j then (1 : ℝ) else 0) * (3 + 1 - ((2 : ℕ) : ℝ)) * 2 / (1 + 2))
    (3 + 1 - ((2 : ℕ) : ℝ))) * (1 / ((1 : ℕ) : ℝ)), ?_, List.mem_singleton.2 rfl, rfl⟩
  · rw [Nat.cast_one, div_one, mul_one, zero_add]
    unfold studentsT
    have hf : 0 < frob realFun (fun i j : Fin 2 => (if i = j then (1 : ℝ) else 0) * (3 + 1 - ((2 : ℕ) : ℝ)) * 2 / (1 + 2)) := by
      show 0 < √_
      apply Real.sqrt_pos.2
      simp only [Fin.sum_univ_two, Fin.isValue, one_ne_zero, zero_ne_one, if_true, if_false]
      norm_num
    have h1 : 0 < realFun.pow (frob realFun (fun i j : Fin 2 => (if i = j then (1 : ℝ) else 0) * (3 + 1 - ((2 : ℕ) : ℝ)) * 2 / (1 + 2))) (1 / 2) :=
      Real.rpow_pos_of_pos hf _
    have h2 : 0 < realFun.pow ((3 + 1 - ((2 : ℕ) : ℝ)) * realFun.pi) (((2 : ℕ) : ℝ) / 2) :=
      Real.rpow_pos_of_pos (by have := Real.pi_pos; show 0 < (3 + 1 - ((2 : ℕ) : ℝ)) * Real.pi; norm_num; exact this) _
    have h3 : ∀ q : ℝ, q = 0 → 0 < realFun.pow (1 + q / (3 + 1 - ((2 : ℕ) : ℝ))) (-(3 + 1 - ((2 : ℕ) : ℝ) + ((2 : ℕ) : ℝ)) / 2) := by
      rintro q rfl
      exact Real.rpow_pos_of_pos (by norm_num) _
    exact (mul_pos (mul_pos (Real.exp_pos _) (div_pos h1 h2)) (h3 _ (by simp))).ne'

/-- In the plane `var_eap_density` is not converted as a density is; the bound is that of the theorem. -/
example : ∃ l, varEapDensity realFun planeObj (.given 2 [fun _ => 0]) .none none = .ok l ∧
    varEapDensity realFun (resize (unit 100) (100 ^ 2) id planeObj) (Points.move (unit (m := 2) 100) (.given 2 [fun _ => 0])) .none none ≠
      .ok (l.map (Fl.scale (100 ^ 2)⁻¹)) := by
  obtain ⟨l, x, hx, hm, hl⟩ := planeObj_density
  exact ⟨l, hl, fun h => absurd ((C118_density_refuted (y := .given 2 [fun _ => 0]) (by norm_num) planeObj rfl none hl hx hm).1 h) (by norm_num)⟩

example : calcElbo realFun (resize (unit 100) (100 ^ 2) id planeObj) =
    (calcElbo realFun planeObj).map (fun e => e + .fin (((1 : ℤ) : ℝ) * ((2 : ℕ) - 1) / 2 * Real.log 100)) :=
  C118_bound (by norm_num) (by norm_num [planeObj]) rfl rfl (by simp [planeObj]) (by norm_num) rfl rfl

/-- The bound of the plane object is a number. -/
theorem planeObj_bound : ∃ e, calcElbo realFun planeObj = .ok (.fin e) := by
  have hf : frob realFun (fun i j : Fin 2 => if i = j then (1 : ℝ) else 0) = √2 := by
    show √_ = _
    congr 1
    simp
  have hlog : Fl.log realFun.log (.fin (√2)) = .fin (Real.log √2) := by
    have : (0 : ℝ) < √2 := by positivity
    simp only [Fl.log, not_lt.2 this.le, this.ne', if_false]
    rfl
  have hN : ∀ nu, ∃ e, eLogNormWishart realFun (fun i j : Fin 2 => if i = j then (1 : ℝ) else 0) nu = .fin e := by
    intro nu
    unfold eLogNormWishart
    rw [hf, hlog]
    exact ⟨_, rfl⟩
  have hW : ∀ nu, ∃ e, logWishartNorm realFun (fun i j : Fin 2 => if i = j then (1 : ℝ) else 0) nu = .fin e := by
    intro nu
    unfold logWishartNorm
    rw [hf, hlog]
    exact ⟨_, rfl⟩
  have hI : matInv (fun i j : Fin 2 => if i = j then (1 : ℝ) else 0) = .ok (fun i j => if i = j then 1 else 0) := by
    have : Matrix.of (fun i j : Fin 2 => if i = j then (1 : ℝ) else 0) = 1 := by
      ext i j
      simp [Matrix.one_apply]
    rw [Affine.matInv_eq, this, Matrix.det_one, if_neg one_ne_zero, inv_one]
    refine congrArg Except.ok ?_
    funext i j
    simp [Matrix.one_apply]
  obtain ⟨a, ha⟩ := hN 3
  obtain ⟨b, hb⟩ := hW 3
  obtain ⟨d, hd⟩ := hW 2
  have e1 : ∃ e, eLogPx realFun planeObj = .fin e := by
    have : List.zipWith (pxTerm realFun planeObj.gm.y) (varRows planeObj) planeObj.varTheta =
        [pxTerm realFun [fun _ => 0] [.fin 1] (some { mu := fun _ => 0, lam := 2, prec := fun i j => if i = j then 1 else 0, scale := 3 })] := rfl
    unfold eLogPx
    rw [this]
    simp only [pxTerm, Fl.numbers, Option.map_some, List.sum_cons, List.sum_nil, add_zero, one_ne_zero, if_false, ha]
    exact ⟨_, rfl⟩
  have e2 : ∃ e, eLogPTheta realFun planeObj = .ok (.fin e) := by
    have h1 : (GM.prior planeObj.gm).psi = fun i j => if i = j then 1 else 0 := rfl
    have h2 : (GM.prior planeObj.gm).nu = 2 := rfl
    have h3 : planeObj.varTheta = [some { mu := fun _ => 0, lam := 2, prec := fun i j => if i = j then 1 else 0, scale := 3 }] := rfl
    unfold eLogPTheta
    rw [h1, hI, h3]
    simp only [h2, hd, List.map_cons, List.map_nil, pThetaTerm, ha]
    exact ⟨_, rfl⟩
  have e3 : ∃ e, eLogQTheta realFun planeObj = .fin e := by
    have h3 : planeObj.varTheta = [some { mu := fun _ => 0, lam := 2, prec := fun i j => if i = j then 1 else 0, scale := 3 }] := rfl
    unfold eLogQTheta
    rw [h3]
    simp only [List.map_cons, List.map_nil, qThetaTerm, entropyWishart, ha, hb]
    exact ⟨_, rfl⟩
  have e4 : ∃ e, eLogQd realFun planeObj = .fin e := by
    unfold eLogQd
    show ∃ e, Fl.sum ([[(Fl.fin 1 : Fl ℝ)]].map _) = .fin e
    have : Fl.log realFun.log (.fin 1) = .fin (Real.log 1) := by
      simp only [Fl.log, not_lt.2 (zero_le_one' ℝ), one_ne_zero, if_false]
      rfl
    simp only [List.map_cons, List.map_nil, this]
    exact ⟨_, rfl⟩
  obtain ⟨x1, h1⟩ := e1
  obtain ⟨x2, h2⟩ := e2
  obtain ⟨x3, h3⟩ := e3
  obtain ⟨x4, h4⟩ := e4
  unfold calcElbo
  simp only [h1, h2, h3, h4]
  exact ⟨_, rfl⟩

/-- In centimetres the bound is not the bound in metres less the change of the log-density. -/
example : ∃ e, calcElbo realFun planeObj = .ok (.fin e) ∧ calcElbo realFun (resize (unit 100) (100 ^ 2) id planeObj) ≠ .ok (.fin (e - 1 * 2 * Real.log 100)) := by
  obtain ⟨e, he⟩ := planeObj_bound
  refine ⟨e, he, ?_⟩
  have := C118_bound_refuted (A := id) (c := 100) (by norm_num) (s := planeObj) (k := 1) (by norm_num [planeObj]) rfl rfl (by simp [planeObj]) (by norm_num) rfl rfl
    (by norm_num) (by simp [planeObj]) he
  have h : (planeObj.gm.y.length : ℝ) = 1 := by simp [planeObj]
  rw [h] at this
  exact_mod_cast this
end Verif.Mix.VM
