import Verif.Props.C52
import Verif.Props.C53

/-!
# C58 — density queries with their default arguments

`var_eap_density()` returns one number per observation, the weighted sum of the groups' densities (`C58_eap_partial`, `C58_after_fit`).
`var_map_density()` always raises `TypeError` (`C58_map_refuted`), and both raise `IndexError` for an `int` `dim` (`C58_int_refuted`).
With the coordinates written out, `var_map_density` works when the modes exist (`C58_map_partial`).
-/

set_option linter.unusedSectionVars false

namespace Verif.Mix.VM
open Verif.Fl
variable {K : Type} [Field K] [LinearOrder K] [IsStrictOrderedRing K] {m : ℕ} {C : WeightClass K} {V : VarClass C} {Atom : Type}
variable {F : MathFun K} {I : C.State → Prop}

/-- After `fit_variational` with `k` groups the expected weights of these groups are numbers. -/
def Means (V : VarClass C) (I : C.State → Prop) : Prop := ∀ k c v, FittedBy V I k c v → ∀ j < k, ∃ x : K, V.meanW c v j = .ok (.fin x)

theorem means_DP : Means (varDP F) (fun _ => True) := by
  rintro k c v ⟨c0, q, _, rfl, hf⟩ j hj
  simp only [varDP, matrix_fin] at hf
  cases hf
  generalize (show DP K from c).alpha = al
  suffices h : ∃ x, DP.meanWj (DP.fitVariational al q) j = .ok x by
    obtain ⟨x, hx⟩ := h
    exact ⟨x, by show flOk (DP.meanWj _ j) = _; rw [hx]; rfl⟩
  unfold DP.meanWj
  have hk : (DP.fitVariational al q).k = q.length := rfl
  have hl := DP.fit_length al q
  rw [hk, if_neg (not_le.2 hj), foldTo_ok _ _ _ _ (by omega)]
  simp only []
  by_cases h : j + 1 < q.length
  · rw [if_pos h, List.getElem?_eq_getElem (by omega)]
    exact ⟨_, rfl⟩
  · rw [if_neg h]
    exact ⟨_, rfl⟩

theorem means_PY : Means (varPY F) (fun _ => True) := by
  rintro k c v ⟨c0, q, _, rfl, hf⟩ j hj
  simp only [varPY, matrix_fin] at hf
  cases hf
  generalize (show PY K from c).alpha = al
  generalize (show PY K from c).pyd = pd
  suffices h : ∃ x, PY.meanWj (PY.fitVariational pd al q) j = .ok x by
    obtain ⟨x, hx⟩ := h
    exact ⟨x, by show flOk (PY.meanWj _ j) = _; rw [hx]; rfl⟩
  unfold PY.meanWj
  have hk : (PY.fitVariational pd al q).k = q.length := rfl
  have hl := PY.fit_length pd al q
  rw [hk, if_neg (by omega), foldTo_ok _ _ _ _ (by omega)]
  simp only []
  rw [List.getElem?_eq_getElem (by omega)]
  exact ⟨_, rfl⟩

theorem means_Geo {F : MathFun ℝ} : Means (varGeo F) (fun _ => True) := by
  rintro k c v ⟨c0, q, _, rfl, hf⟩ j hj
  simp only [varGeo, matrix_fin] at hf
  cases hg : Geo.fitVariational (show Geo ℝ from c0).a (show Geo ℝ from c0).b q with
  | error e => rw [hg] at hf; cases hf
  | ok g =>
    rw [hg] at hf
    cases hf
    exact ⟨_, rfl⟩

theorem means_DirDist : Means (varDirDist F) (fun c => (show DirDist K from c).alpha ≠ []) := by
  rintro k c v ⟨c0, q, hc, rfl, hf⟩ j hj
  simp only [varDirDist, matrix_fin] at hf
  cases hg : DirDist.fitVariational (show DirDist K from c0).n (show DirDist K from c0).alpha q with
  | error e => rw [hg] at hf; cases hf
  | ok g =>
    rw [hg] at hf
    cases hf
    suffices h : ∃ x, DirDist.meanWj g j = .ok x by
      obtain ⟨x, hx⟩ := h
      exact ⟨x, by show flOk (DirDist.meanWj _ j) = _; rw [hx]; rfl⟩
    unfold DirDist.fitVariational at hg
    split at hg
    · cases hg
    · split at hg
      · cases hg
      · rename_i hn ps hps
        cases hg
        have h1 := broadcast_length (by
          intro h0
          have := congrArg List.length h0
          rw [rowSums_length] at this
          simp at this
          subst this
          simp at hj) hps
        rw [rowSums_length] at h1
        have h2 : q.length ≤ ps.length := h1.resolve_right hc
        unfold DirDist.meanWj
        split
        · exact ⟨_, rfl⟩
        · rw [List.getElem?_eq_getElem (show j < ps.length by omega)]
          exact ⟨_, rfl⟩

theorem means_Equal : Means (varEqual F) (fun _ => True) := by
  rintro k c v ⟨c0, q, _, rfl, hf⟩ j hj
  exact ⟨_, rfl⟩

/-- After a fit on responsibilities for `k` groups the mean and the mode of each of the `k` weights of `EqualWeighting` are `1 / k`, whatever `n` was before. -/
theorem C58_equalWeighting {c c' : Equal K} {v : Bool} {q : List (List (Fl K))} (h : (varEqual F).fit c q = .ok (c', v)) {j : ℕ} (hj : j < q.length) :
    (varEqual F).meanW c' v j = .ok (.fin (1 / (q.length : K))) ∧ (varEqual F).modeW c' v j = .ok (some (.fin (1 / (q.length : K)))) := by
  cases h
  have : Equal.meanWj (K := K) ((q.length : ℕ) : ℤ).toNat j = 1 / (q.length : K) := by
    unfold Equal.meanWj
    simp [hj]
  exact ⟨congrArg (fun x => Except.ok (Fl.fin x)) this, congrArg (fun x => Except.ok (some (Fl.fin x))) this⟩

example : ∃ (c' : Equal ℚ) (v : Bool), (varEqual vworld.toMathFun).fit ({ n := 7, w := [], d := [] } : Equal ℚ) [[.fin 1, .fin 0], [.fin 0, .fin 1]] = .ok (c', v) := ⟨_, _, rfl⟩

theorem means_Freq : Means (varFreq F) (fun c => 1 ≤ (show Freq K from c).n) := by
  rintro k c v ⟨c0, q, _, rfl, hf⟩ j hj
  cases hf
  show ∃ x : K, (if freqK (show Freq K from c).n (q.map (fun r => r.map fin)) ≤ j then (.ok (.fin 0) : Except PyErr (Fl K)) else freqShare (q.map (fun r => r.map fin)) j) = _
  split
  · exact ⟨_, rfl⟩
  · exact freq_share hj

/-! ### The loop -/

/-- The value of a query at a point: the sum over the groups of weight times density. -/
def mixValue {α : Type} (w : ℕ → K) (f : VAtom K m → α → K) (as : List (Option (VAtom K m))) (x : α) : K :=
  ∑ j ∈ Finset.range as.length, match as[j]? with
    | some (some a) => w j * f a x
    | _ => 0

theorem densityLoop_ok {c : ℕ} {g : Fin c → Fin m} {f : (Fin c → Fin m) → VAtom K m → (Fin c → K) → K} {w : ℕ → Except PyErr (Fl K)} {wf : ℕ → K}
    {xs : List (Fin c → K)} : ∀ (l : List (ℕ × Option (VAtom K m))) (acc : (Fin c → K) → K), (∀ p ∈ l, (∃ a, p.2 = some a) ∧ w p.1 = .ok (.fin (wf p.1))) →
    densityLoop (.ok g) f w xs l (xs.map (fun x => .fin (acc x))) = .ok (xs.map (fun x => .fin (acc x + (l.map (fun p => match p.2 with
      | some a => f g a x * wf p.1
      | none => 0)).sum)))
  | [], acc, _ => by simp [densityLoop]
  | (j, a) :: l, acc, h => by
    obtain ⟨⟨b, hb⟩, hw⟩ := h (j, a) (by simp)
    simp only at hb hw
    subst hb
    rw [densityLoop]
    simp only [hw]
    have e : List.zipWith (· + ·) (xs.map (fun x => Fl.fin (acc x))) (xs.map (fun x => Fl.scale (f g b x) (Fl.fin (wf j))))
        = xs.map (fun x => Fl.fin (acc x + f g b x * wf j)) := by
      rw [List.zipWith_map, List.zipWith_self]
      rfl
    rw [e, densityLoop_ok l (fun x => acc x + f g b x * wf j) (fun p hp => h p (by simp [hp]))]
    congr 1
    apply List.map_congr_left
    intro x _
    congr 1
    rw [List.map_cons, List.sum_cons, add_assoc]

theorem mapIdx_sum {α : Type} {w : ℕ → K} {f : VAtom K m → α → K} (as : List (Option (VAtom K m))) (x : α) :
    ((as.mapIdx (fun j a => (j, a))).map (fun p => match p.2 with
      | some a => f a x * w p.1
      | none => 0)).sum = mixValue w f as x := by
  unfold mixValue
  rw [List.mapIdx_eq_zipIdx_map, List.map_map]
  induction as using List.reverseRecOn with
  | nil => rfl
  | append_singleton as a ih =>
    rw [List.zipIdx_append, List.map_append, List.sum_append, ih, List.length_append, List.length_singleton, Finset.sum_range_succ]
    congr 1
    · apply Finset.sum_congr rfl
      intro j hj
      rw [List.getElem?_append_left (Finset.mem_range.1 hj)]
    · rw [List.getElem?_append_right le_rfl, Nat.sub_self]
      cases a with
      | none => simp
      | some a => simp [mul_comm]

theorem Ready.pairs {k : ℕ} {s : VM V m Atom} (h : Ready I k s) : ∀ p ∈ s.varTheta.mapIdx (fun j a => (j, a)), (∃ a, p.2 = some a) ∧ p.1 < k := by
  intro p hp
  obtain ⟨i, hi, rfl⟩ := List.mem_mapIdx.1 hp
  obtain ⟨b, hb, _⟩ := h.atoms _ (List.getElem_mem hi)
  exact ⟨⟨b, hb⟩, by rw [← h.theta]; exact hi⟩

/-- **C58**, `var_eap_density()`: one number per observation, the weighted sum of the Student densities of the groups. -/
theorem C58_eap_partial (hM : Means V I) {k : ℕ} {s : VM V m Atom} (hs : s.varFitted = true) (h : Ready I k s) :
    ∃ w : ℕ → K, (∀ j < k, V.meanW s.gm.wst.1 s.vst j = .ok (.fin (w j))) ∧
      varEapDensity F s .own .none none = .ok (s.gm.y.map (fun x => .fin (mixValue w (fun a x => studentsT F x a.mu
        (fun i j => a.prec i j * (a.scale + 1 - (m : K)) * a.lam / (1 + a.lam)) (a.scale + 1 - (m : K))) s.varTheta x))) := by
  have h1 : ∀ j, ∃ x : K, j < k → V.meanW s.gm.wst.1 s.vst j = .ok (.fin x) := fun j => by
    by_cases hj : j < k
    · obtain ⟨x, hx⟩ := hM k _ _ h.inv.2 j hj
      exact ⟨x, fun _ => hx⟩
    · exact ⟨0, fun h => absurd h hj⟩
  choose w hw using h1
  refine ⟨w, hw, ?_⟩
  unfold varEapDensity
  rw [if_neg (by rw [hs]; simp)]
  simp only [points, components, dimMap, le_refl, dite_true, Fin.castLE_rfl, id]
  rw [if_neg (by simp), densityLoop_ok (wf := w) _ (fun _ => 0) (fun p hp => ⟨(h.pairs p hp).1, hw p.1 (h.pairs p hp).2⟩)]
  congr 1
  apply List.map_congr_left
  intro x _
  rw [zero_add]
  exact congrArg Fl.fin (mapIdx_sum (f := fun a x => studentsT F x a.mu
        (fun i j => a.prec i j * (a.scale + 1 - (m : K)) * a.lam / (1 + a.lam)) (a.scale + 1 - (m : K))) _ _)

/-- After a fit that returned, for every class with the variational interface. -/
theorem C58_after_fit {ω : Oracle K} {F : VWorld K m} {W : World K m Atom} (hF : Sane F.toMathFun) (he : 0 < W.eps) (hV : Regular V I) (hM : Means V I)
    (hm : 0 < m) {ys : List (Fin m → K)} (hy : ys ≠ []) (nG : Option ℤ) (tol : Fl K) {s u : VM V m Atom × ℕ} (hI : I s.1.gm.wst.1)
    (h : fitVariational F W (.rows ys) nG false tol .random ω s = (.ok (), u)) :
    ∃ r : List K, varEapDensity F.toMathFun u.1 .own .none none = .ok (r.map .fin) ∧ r.length = ys.length := by
  obtain ⟨k, _, h1, h2, h3⟩ := C52_random hF he hV hm hy nG tol hI h
  have hu : u.1.varFitted = true := by
    obtain ⟨_, u', _, _, _, hu, _⟩ := C53_flag h
    rw [hu]
  obtain ⟨w, _, hw⟩ := C58_eap_partial (F := F.toMathFun) hM hu h2
  refine ⟨u.1.gm.y.map _, by rw [hw, List.map_map]; rfl, ?_⟩
  simp [h3]

/-- The classes. -/
theorem C58_classes (G : MathFun K) (H : MathFun ℝ) : Means (varDP G) (fun _ => True) ∧ Means (varPY G) (fun _ => True) ∧ Means (varGeo H) (fun _ => True) ∧
    Means (varDirDist G) (fun c => (show DirDist K from c).alpha ≠ []) ∧ Means (varEqual G) (fun _ => True) ∧
    Means (varFreq G) (fun c => 1 ≤ (show Freq K from c).n) :=
  ⟨means_DP, means_PY, means_Geo, means_DirDist, means_Equal, means_Freq⟩

/-- **C58 fails** for `var_map_density()`: with the default `dim` it raises `TypeError` in every state in which it does not raise `NotFittedError`. -/
theorem C58_map_refuted {s : VM V m Atom} (hs : s.varFitted = true) (y : Points K) (component : Option ℕ) :
    varMapDensity F s y .none component = .error .typeError := by
  unfold varMapDensity
  rw [if_neg (by rw [hs]; simp)]
  cases y <;> simp [points]

/-- **C58 fails** for an `int` `dim`: both queries raise `IndexError` for every fitted object with a group. -/
theorem C58_int_refuted {s : VM V m Atom} (hs : s.varFitted = true) (hne : s.varTheta ≠ []) (y : Points K) (hy : y ≠ .invalid) (i : ℕ) (component : Option ℕ) :
    varEapDensity F s y (.int i) component = .error .indexError ∧ varMapDensity F s y (.int i) component = .error .indexError := by
  obtain ⟨a, as, ha⟩ := List.exists_cons_of_ne_nil hne
  have hc : components s component = .error .indexError ∨ ∃ p l, components s component = .ok (p :: l) := by
    unfold components
    cases component with
    | none => right; rw [ha, List.mapIdx_cons]; exact ⟨_, _, rfl⟩
    | some j =>
      simp only []
      cases s.varTheta[j]? with
      | none => left; rfl
      | some b => right; exact ⟨_, _, rfl⟩
  unfold varEapDensity varMapDensity
  rw [if_neg (by rw [hs]; simp), if_neg (by rw [hs]; simp)]
  cases y with
  | invalid => exact absurd rfl hy
  | own =>
    simp only [points]
    rcases hc with hc | ⟨⟨j, b⟩, l, hc⟩ <;> simp [hc, densityLoop, dimMap]
  | given c xs =>
    simp only [points]
    rcases hc with hc | ⟨⟨j, b⟩, l, hc⟩ <;> simp [hc, densityLoop, dimMap]

/-- `var_map_density` with all coordinates written out works when the modes are numbers. -/
theorem C58_map_partial {k : ℕ} {s : VM V m Atom} (hs : s.varFitted = true) (h : Ready I k s) {w : ℕ → K}
    (hw : ∀ j < k, V.modeW s.gm.wst.1 s.vst j = .ok (some (.fin (w j)))) :
    varMapDensity F s .own (.list (List.range m)) none = .ok (s.gm.y.map (fun x => .fin (mixValue w (fun a x => normalDensity F x a.mu
        (fun i j => (a.scale - (m : K)) * a.prec i j)) s.varTheta x))) := by
  unfold varMapDensity
  rw [if_neg (by rw [hs]; simp)]
  have hd : dimMap m m (.list (List.range m)) = .ok id := by
    simp only [dimMap]
    rw [dif_pos (by simp), dif_pos (by simp)]
    congr 1
    funext i
    simp
  simp only [points, components, hd]
  rw [if_neg (by simp), densityLoop_ok (wf := w) _ (fun _ => 0) (fun p hp => ⟨(h.pairs p hp).1, by rw [hw p.1 (h.pairs p hp).2]⟩)]
  congr 1
  apply List.map_congr_left
  intro x _
  rw [zero_add, mapIdx_sum (f := fun a x => normalDensity F x (fun i => a.mu (id i)) (fun i j => (a.scale - (m : K)) * a.prec (id i) (id j)))]
  rfl

/-! ### Concrete case -/

/-- An object after a fit. -/
def densFit : VM (varDP demoFun) 1 ℚ :=
  (fitVariational vworld world (rows1 [0, 7]) (some 2) false (.fin 0) .random demo
    ({ dpVM 1 with gm := { (dpVM 1).gm with psiPrior := some (fun _ _ => 1) } }, 0)).2.1

example : densFit.varFitted = true ∧ densFit.varTheta ≠ [] ∧
    (match varEapDensity demoFun densFit .own .none none with | .ok [.fin a, .fin b] => decide (0 < a ∧ 0 < b) | _ => false) = true := by
  decide +kernel
end Verif.Mix.VM
