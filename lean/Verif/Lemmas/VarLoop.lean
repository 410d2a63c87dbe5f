import Verif.Lemmas.VarFit

/-! # The loop of `fit_variational` and its start -/

set_option linter.unusedSectionVars false

namespace Verif.Mix.VM
open Verif.Fl
variable {K : Type} [Field K] [LinearOrder K] [IsStrictOrderedRing K] {m : ℕ} {C : WeightClass K} {V : VarClass C} {Atom : Type}
variable {ω : Oracle K} {W : World K m Atom} {I : C.State → Prop}

/-- Successive iterations from one state to another; the list has the value of the ELBO after each of them. -/
inductive Iter (F : MathFun K) (W : World K m Atom) (ω : Oracle K) : VM V m Atom × ℕ → List (Fl K) → VM V m Atom × ℕ → Prop
  | nil (s) : Iter F W ω s [] s
  | cons {s t u e es} (h : maximize F W ω s = (.ok (), t)) (he : calcElbo F t.1 = .ok e) (rest : Iter F W ω t es u) : Iter F W ω s (e :: es) u

/-- The change of the ELBO seen by the loop condition, for the last two values and the change before. -/
def changes (elbo diff : Fl K) : List (Fl K) → List (Fl K)
  | [] => [diff]
  | e :: es => diff :: changes e (Fl.abs (elbo - e)) es

theorem changes_length (elbo diff : Fl K) (es : List (Fl K)) : (changes elbo diff es).length = es.length + 1 := by
  induction es generalizing elbo diff with
  | nil => rfl
  | cons e es ih => rw [changes, List.length_cons, ih, List.length_cons]

variable {F : MathFun K}

/-- `maximize` leaves the settings alone. -/
theorem maximize_settings {s : VM V m Atom × ℕ} : wp ω (maximize F W) (fun _ t => t.1.gm.totalIter = s.1.gm.totalIter ∧ t.1.varConverged = s.1.varConverged
      ∧ t.1.varFitted = s.1.varFitted ∧ t.1.gm.y = s.1.gm.y)
    (fun _ t => t.1.gm.totalIter = s.1.gm.totalIter ∧ t.1.varConverged = s.1.varConverged ∧ t.1.varFitted = s.1.varFitted ∧ t.1.gm.y = s.1.gm.y) s := by
  have h : KeepsR ω (fun t : VM V m Atom => t.gm.totalIter = s.1.gm.totalIter ∧ t.varConverged = s.1.varConverged
      ∧ t.varFitted = s.1.varFitted ∧ t.gm.y = s.1.gm.y) (maximize F W) (fun _ => True) := by
    unfold maximize
    refine KeepsR.bind (R := fun _ => True) ?_ (fun _ _ => KeepsR.bind (R := fun _ => True) ?_ (fun _ _ => ?_))
    · unfold updateVarD
      refine KeepsR.bind KeepsR.self (fun t ht => ?_)
      cases t.varK with
      | none => exact KeepsR.raise _
      | some k =>
        simp only []
        exact KeepsR.ite (fun _ => KeepsR.raise _) (fun _ => KeepsR.bind (KeepsR.lift _) (fun _ _ =>
          KeepsR.ite (fun _ => KeepsR.raise _) (fun _ => KeepsR.assign (fun _ h => h))))
    · unfold updateVarW fitWeights
      exact KeepsR.bind KeepsR.self (fun _ _ => KeepsR.bind KeepsR.self (fun _ _ => KeepsR.bind (KeepsR.lift _) (fun _ _ => KeepsR.assign (fun _ h => h))))
    · unfold updateVarTheta
      exact KeepsR.bind KeepsR.self (fun _ _ => KeepsR.bind (KeepsR.lift _) (fun _ _ => KeepsR.assign (fun _ h => h)))
  exact wp_mono (h.wp ⟨rfl, rfl, rfl, rfl⟩) (fun _ _ h => h.1) (fun _ _ h => h)

/-- The loop: with enough fuel it performs some iterations; each was started because the condition held, and it ended because the condition failed. -/
theorem varLoop_spec (tol : Fl K) : ∀ (n : ℕ) (elbo diff : Fl K) (it : ℤ) (s : VM V m Atom × ℕ), (s.1.gm.totalIter - it).toNat < n →
    wp ω (varLoop F W tol n elbo diff it)
      (fun r u => ∃ es, Iter F W ω s es u ∧ r = it + es.length ∧ u.1.gm.totalIter = s.1.gm.totalIter ∧ u.1.varConverged = s.1.varConverged ∧
        u.1.gm.y = s.1.gm.y ∧
        (∀ i < es.length, it + i < s.1.gm.totalIter ∧ ((changes elbo diff es)[i]?).map (Fl.lt tol) = some true) ∧
        (it + es.length < s.1.gm.totalIter → ((changes elbo diff es)[es.length]?).map (Fl.lt tol) = some false))
      (fun _ u => u.1.varFitted = s.1.varFitted ∧ u.1.varConverged = s.1.varConverged) s := by
  intro n
  induction n with
  | zero => intro elbo diff it s h; omega
  | succ n ih =>
    intro elbo diff it s hn
    unfold varLoop
    rw [wp_bind, wp_self, wp_ite]
    constructor
    · rintro ⟨hc, hit⟩
      rw [wp_bind]
      have hset := maximize_settings (ω := ω) (F := F) (W := W) (s := s)
      have hex : wp ω (maximize F W) (fun _ t => maximize F W ω s = (.ok (), t)) (fun _ _ => True) s := by
        unfold wp
        rcases maximize F W ω s with ⟨e | a, t⟩
        · trivial
        · rfl
      refine wp_mono (wp_and hset hex) ?_ (fun _ t h => ⟨h.1.2.2.1, h.1.2.1⟩)
      rintro _ t ⟨⟨ht1, ht2, ht3, ht4⟩, hmax⟩
      rw [wp_bind, wp_self, wp_bind, wp_lift]
      refine ⟨?_, fun e _ => ⟨ht3, ht2⟩⟩
      intro e he
      refine wp_mono (ih e (Fl.abs (elbo - e)) (it + 1) t (by rw [ht1]; omega)) ?_ ?_
      · rintro r u ⟨es, h1, h2, h3, h4, h5, h6, h7⟩
        rw [ht1] at h3 h6 h7
        refine ⟨e :: es, .cons hmax he h1, ?_, h3, h4.trans ht2, h5.trans ht4, ?_, ?_⟩
        · rw [h2, List.length_cons]; push_cast; ring
        · intro i hi
          cases i with
          | zero =>
            refine ⟨by simpa using hit, ?_⟩
            rw [changes, List.getElem?_cons_zero, Option.map_some, hc]
          | succ i =>
            obtain ⟨h8, h9⟩ := h6 i (by simpa using hi)
            refine ⟨by push_cast; omega, ?_⟩
            rw [changes, List.getElem?_cons_succ]
            exact h9
        · intro hlt
          rw [changes, List.length_cons, List.getElem?_cons_succ]
          refine h7 ?_
          rw [List.length_cons] at hlt
          push_cast at hlt
          omega
      · rintro _ u ⟨h1, h2⟩
        exact ⟨h1.trans ht3, h2.trans ht2⟩
    · intro hc
      rw [wp_pure]
      refine ⟨[], .nil _, by simp, rfl, rfl, rfl, by simp, ?_⟩
      intro hlt
      simp only [List.length_nil, Nat.cast_zero, add_zero] at hlt
      rw [changes, List.length_nil, List.getElem?_cons_zero, Option.map_some]
      cases hl : Fl.lt tol diff with
      | false => rfl
      | true => exact absurd ⟨hl, hlt⟩ hc

/-- More fuel does not change the outcome. -/
theorem varLoop_fuel (tol : Fl K) : ∀ (n : ℕ) (extra : ℕ) (elbo diff : Fl K) (it : ℤ) (s : VM V m Atom × ℕ), (s.1.gm.totalIter - it).toNat < n →
    varLoop F W tol (n + extra) elbo diff it ω s = varLoop F W tol n elbo diff it ω s := by
  intro n
  induction n with
  | zero => intro extra elbo diff it s h; omega
  | succ n ih =>
    intro extra elbo diff it s hn
    rw [show n + 1 + extra = (n + extra) + 1 by omega]
    unfold varLoop
    rw [M.bind_apply, M.bind_apply]
    show (if Fl.lt tol diff = true ∧ it < s.1.gm.totalIter then _ else _ : M K (VM V m Atom) ℤ) ω s = (if Fl.lt tol diff = true ∧ it < s.1.gm.totalIter then _ else _ : M K (VM V m Atom) ℤ) ω s
    by_cases hc : Fl.lt tol diff = true ∧ it < s.1.gm.totalIter
    · rw [if_pos hc, if_pos hc, M.bind_apply, M.bind_apply]
      have hset := maximize_settings (ω := ω) (F := F) (W := W) (s := s)
      unfold wp at hset
      revert hset
      rcases maximize F W ω s with ⟨e | a, t⟩
      · intro _; rfl
      · intro hset
        show (M.self >>= _ : M K (VM V m Atom) ℤ) ω t = (M.self >>= _ : M K (VM V m Atom) ℤ) ω t
        rw [M.bind_apply, M.bind_apply]
        show (M.lift (calcElbo F t.1) >>= _ : M K (VM V m Atom) ℤ) ω t = (M.lift (calcElbo F t.1) >>= _ : M K (VM V m Atom) ℤ) ω t
        rw [M.bind_apply, M.bind_apply, M.lift_apply]
        cases calcElbo F t.1 with
        | error e => rfl
        | ok e =>
          have h1 : t.1.gm.totalIter = s.1.gm.totalIter := hset.1
          exact ih extra e (Fl.abs (elbo - e)) (it + 1) t (by rw [h1]; omega)
    · rw [if_neg hc, if_neg hc]

/-! ### A usable object stays usable -/

theorem Iter.ready {F : MathFun K} (hF : Sane F) (he : 0 < W.eps) (hV : Regular V I) (hm : 0 < m) {k : ℕ} {s u : VM V m Atom × ℕ} {es : List (Fl K)}
    (h : Iter F W ω s es u) (hr : Ready I k s.1) (hy : s.1.gm.y ≠ []) : Ready I k u.1 ∧ (es ≠ [] ∨ Probs k s.1 → Probs k u.1) := by
  induction h with
  | nil s => exact ⟨hr, fun h => h.resolve_left (fun h => h rfl)⟩
  | cons hmax hel rest ih =>
    obtain ⟨h1, h2, h3⟩ := wp_of_ok hmax (maximize_ready (ω := ω) hF he hV hm hr hy)
    obtain ⟨h4, h5⟩ := ih h1 (by rw [h3]; exact hy)
    exact ⟨h4, fun _ => h5 (.inr h2)⟩

/-! ### The start -/

theorem wp_draw {σ α : Type} {E : PyErr → σ × ℕ → Prop} {s : σ × ℕ} {Q : α → σ × ℕ → Prop} (f : ℕ → α) :
    wp ω (GM.draw1 f : M K σ α) Q E s ↔ Q (f s.2) (s.1, s.2 + 1) := Iff.rfl

theorem drawAtoms_ok (hm : 0 < m) (F : VWorld K m) : ∀ (k : ℕ) {n : ℕ} (s : VM V m Atom × ℕ), AtomsOk n s.1.varTheta →
    wp ω (drawAtoms F k) (fun _ t => AtomsOk (n + k) t.1.varTheta ∧ t.1.varK = s.1.varK ∧ t.1.gm = s.1.gm ∧ t.1.vst = s.1.vst) (fun _ _ => True) s := by
  intro k
  induction k with
  | zero => intro n s h; exact ⟨h, rfl, rfl, rfl⟩
  | succ k ih =>
    intro n s h
    unfold drawAtoms
    rw [wp_bind, wp_self, wp_bind, wp_draw, wp_bind, wp_lift]
    refine ⟨?_, fun _ _ => trivial⟩
    intro P hP
    rw [wp_bind, wp_assign]
    refine wp_mono (ih (n := n + 1) _ ?_) ?_ (fun _ _ _ => trivial)
    · refine ⟨by simp [h.1], ?_⟩
      intro a ha
      rcases List.mem_append.1 ha with ha | ha
      · exact h.2 a ha
      · rw [List.mem_singleton] at ha
        exact ⟨_, ha, matInv_ne_zero hm hP⟩
    · rintro _ t ⟨h1, h2, h3, h4⟩
      refine ⟨?_, h2, h3, h4⟩
      rw [show n + (k + 1) = n + 1 + k by omega]; exact h1

/-- `init_method="random"` leaves a usable object. -/
theorem initVar_random (hm : 0 < m) (hV : Regular V I) (F : VWorld K m) (k : ℤ) (s : VM V m Atom × ℕ) (hI : I s.1.gm.wst.1) :
    wp ω (initVar F W k .random) (fun _ t => 0 < k ∧ Ready I k.toNat t.1 ∧ Probs k.toNat t.1 ∧ t.1.gm.y = s.1.gm.y) (fun _ _ => True) s := by
  unfold initVar
  rw [wp_bind, wp_assign, wp_bind]
  refine wp_mono (drawAtoms_ok hm F k.toNat (n := 0) _ ⟨rfl, fun a ha => by cases ha⟩) ?_ (fun _ _ _ => trivial)
  rintro _ t ⟨h1, h2, h3, h4⟩
  rw [wp_ite]
  refine ⟨fun _ => trivial, fun hk0 => ?_⟩
  rw [wp_ite]
  refine ⟨fun _ => trivial, fun hk1 => ?_⟩
  have hk : 0 < k := by omega
  rw [wp_bind, wp_assign]
  rw [Nat.zero_add] at h1
  have hkn : ((k.toNat : ℕ) : ℤ) = k := Int.toNat_of_nonneg hk.le
  have hK : (0 : K) < k := by exact_mod_cast hk
  have hp : Probs k.toNat { t.1 with varD := t.1.gm.y.map (fun _ => List.replicate k.toNat (Fl.fin (1 / (k : K)))) } := by
    refine ⟨by simp, ?_⟩
    intro c hc
    obtain ⟨y, _, rfl⟩ := List.mem_map.1 hc
    refine ⟨List.replicate k.toNat (1 / (k : K)), by rw [List.map_replicate], by simp, ?_, ?_⟩
    · intro x hx
      rw [List.eq_of_mem_replicate hx]
      positivity
    · rw [List.sum_replicate, nsmul_eq_mul]
      have : ((k.toNat : ℕ) : K) = (k : K) := by
        have h : (((k.toNat : ℕ) : ℤ) : K) = (k : K) := by rw [hkn]
        rw [Int.cast_natCast] at h; exact h
      rw [this]
      field_simp
  refine wp_mono (updateVarW_ready hV (by omega) (by rw [hkn]; exact h2) (by show I t.1.gm.wst.1; rw [h3]; exact hI) hp) ?_ (fun _ _ _ => trivial)
  rintro _ u ⟨⟨hi, hw⟩, hk2, ht2, hd2, hy2⟩
  refine ⟨hk, ⟨?_, by omega, ?_, ?_, hi, hw⟩, ?_, ?_⟩
  · rw [hk2, hkn]; exact h2
  · rw [ht2]; exact h1.1
  · rw [ht2]; exact h1.2
  · unfold Probs at hp ⊢
    rw [hd2, hy2]; exact hp
  · rw [hy2]
    show t.1.gm.y = s.1.gm.y
    rw [h3]

theorem onehot_row {k : ℕ} {ls : List ℕ} {j : ℕ} (hj : j < k) :
    (ls.map (oneHot (K := K) k)).map (fun c => (c[j]?).getD .nan) = (ls.map (fun x => if j = x then (1 : K) else 0)).map fin := by
  rw [List.map_map, List.map_map]
  apply List.map_congr_left
  intro x _
  simp only [Function.comp_apply, oneHot]
  rw [List.getElem?_map, List.getElem?_range hj]
  simp only [Option.map_some, Option.getD_some]
  split <;> rfl

/-- `init_method="kmeans"` leaves a usable object when every group has an observation. -/
theorem initVar_kmeans {F : VWorld K m} (hF : Sane F.toMathFun) (he : 0 < W.eps) (hm : 0 < m) (hV : Regular V I) (k : ℤ) (s : VM V m Atom × ℕ) (hI : I s.1.gm.wst.1)
    (hk : 0 < k)
    (hcover : ∀ raw, W.kmeans s.2 s.1.gm.y k = .ok raw → ∀ j < k.toNat, j ∈ sizeBiased W.argsort raw) :
    wp ω (initVar F W k .kmeans) (fun _ t => Ready I k.toNat t.1 ∧ Probs k.toNat t.1 ∧ t.1.gm.y = s.1.gm.y) (fun _ _ => True) s := by
  have hkn : ((k.toNat : ℕ) : ℤ) = k := Int.toNat_of_nonneg hk.le
  unfold initVar
  rw [wp_bind, wp_assign, wp_bind, wp_self, wp_bind, wp_draw, wp_bind, wp_lift]
  refine ⟨?_, fun _ _ => trivial⟩
  intro raw hraw
  have hc := hcover raw hraw
  rw [if_neg (by omega), wp_ite]
  refine ⟨fun _ => trivial, fun _ => ?_⟩
  rw [wp_bind, wp_assign, wp_bind]
  unfold fitWeights
  rw [wp_bind, wp_self, wp_bind, wp_lift]
  refine ⟨?_, fun _ _ => trivial⟩
  intro r hr
  have hreg := hV _ (List.replicate k.toNat []) r.1 r.2 hI (by simp; omega) (by rw [List.map_replicate]; exact hr)
  rw [List.length_replicate] at hreg
  rw [wp_assign, wp_bind]
  unfold updateVarTheta
  rw [wp_bind, wp_self, wp_bind, wp_lift]
  refine ⟨?_, fun _ _ => trivial⟩
  intro as has
  rw [wp_assign, wp_bind]
  have hrows : ∀ s' : VM V m Atom, s'.varK = some k → s'.varD = (sizeBiased W.argsort raw).map (oneHot k.toNat) →
      varRows s' = ((List.range k.toNat).map (fun j => (sizeBiased W.argsort raw).map (fun x => if j = x then (1 : K) else 0))).map (fun r => r.map fin) := by
    intro s' h1 h2
    unfold varRows
    rw [h1, h2, List.map_map]
    apply List.map_congr_left
    intro j hj
    exact onehot_row (List.mem_range.1 hj)
  rw [hrows _ rfl rfl] at has
  have hatoms := varAtoms_ok hm ?_ has
  · rw [List.length_map, List.length_range] at hatoms
    refine wp_mono (updateVarD_ready (I := I) hF he (k := k.toNat) ?_) ?_ (fun _ _ _ => trivial)
    · exact ⟨by rw [hkn], by omega, hatoms.1, hatoms.2, ⟨hreg.1, _, List.replicate k.toNat [], hI, by simp, by rw [List.map_replicate]; exact hr⟩, hreg.2⟩
    · rintro _ t ⟨h1, h2, h3⟩
      refine wp_mono (updateVarW_ready hV (by omega) h1.varK h1.inv.1 h2) ?_ (fun _ _ _ => trivial)
      rintro _ u ⟨⟨hi, hw⟩, hk2, ht2, hd2, hy2⟩
      refine ⟨⟨hk2.trans h1.varK, by omega, by rw [ht2]; exact h1.theta, by rw [ht2]; exact h1.atoms, hi, hw⟩, ?_, ?_⟩
      · unfold Probs at h2 ⊢
        rw [hd2, hy2]; exact h2
      · rw [hy2, h3]
  · intro r hr
    obtain ⟨j, hj, rfl⟩ := List.mem_map.1 hr
    have hj' := hc j (List.mem_range.1 hj)
    have : ∀ l : List ℕ, j ∈ l → 0 < (l.map (fun x => if j = x then (1 : K) else 0)).sum := by
      intro l hl
      induction l with
      | nil => cases hl
      | cons x l ih =>
        rw [List.map_cons, List.sum_cons]
        have h0 : 0 ≤ (l.map (fun x => if j = x then (1 : K) else 0)).sum := by
          apply List.sum_nonneg
          intro y hy
          obtain ⟨z, _, rfl⟩ := List.mem_map.1 hy
          split <;> norm_num
        by_cases hx : j = x
        · rw [if_pos hx]; positivity
        · rw [if_neg hx, zero_add]
          exact ih ((List.mem_cons.1 hl).resolve_left hx)
    exact this _ hj'

/-! ### The whole call -/

theorem wp_onGM {α : Type} {Q : α → VM V m Atom × ℕ → Prop} {E : PyErr → VM V m Atom × ℕ → Prop} {s : VM V m Atom × ℕ} (x : M K (GM C m Atom) α) :
    wp ω (onGM x) Q E s ↔ wp ω x (fun a t => Q a ({ s.1 with gm := t.1 }, t.2)) (fun e t => E e ({ s.1 with gm := t.1 }, t.2)) (s.1.gm, s.2) := by
  unfold wp onGM
  rcases x ω (s.1.gm, s.2) with ⟨e | a, t⟩ <;> rfl

/-- The object after `_initialize_common_params`. -/
def begun (ys : List (Fin m → K)) (s : VM V m Atom) : VM V m Atom := { s with
  gm := { s.gm with
    y := ys
    muPrior := some (s.gm.muPrior.getD (meanVec ys))
    psiPrior := some (s.gm.psiPrior.getD (GM.cov ys))
    nuPrior := some (s.gm.nuPrior.getD (m : K)) } }

/-- The number of groups of a cold start. -/
def startGroups (nG : Option ℤ) (s : VM V m Atom) : Option ℤ := match nG with
  | some k => some k
  | none => s.gm.nAttr

/-- A call is: the common part, the start (unless warm), the loop. -/
theorem fitVariational_wp {F : VWorld K m} {ys : List (Fin m → K)} {nG : Option ℤ} {warm : Bool} {tol : Fl K} {method : VarInit}
    {Q : VM V m Atom × ℕ → Prop} {E : PyErr → VM V m Atom × ℕ → Prop} {s : VM V m Atom × ℕ} (P : VM V m Atom × ℕ → Prop)
    (hwarm : warm = true → P (begun ys s.1, s.2))
    (hcold : warm = false → ∀ k, startGroups nG s.1 = some k → wp ω (initVar F W k method) (fun _ t => P t) E (begun ys s.1, s.2))
    (hnone : warm = false → startGroups nG s.1 = none → E .attributeError (begun ys s.1, s.2))
    (hloop : ∀ t, P t → wp ω (varLoop F.toMathFun W tol (t.1.gm.totalIter.toNat + 1) .ninf .pinf 0)
      (fun it u => Q ({ u.1 with varFitted := true, varConverged := u.1.varConverged || decide (it < u.1.gm.totalIter) }, u.2)) E t) :
    wp ω (fitVariational F W (.rows ys) nG warm tol method) (fun _ u => Q u) E s := by
  unfold fitVariational
  rw [wp_bind, wp_onGM]
  show wp ω (M.whenM (warm = false) _ >>= _) _ _ (begun ys s.1, s.2)
  rw [wp_bind, wp_whenM]
  have fin : ∀ t, P t → wp ω (do
      let s ← M.self
      let it ← varLoop F.toMathFun W tol (s.gm.totalIter.toNat + 1) .ninf .pinf 0
      M.assign (fun s => { s with
          varFitted := true
          varConverged := s.varConverged || decide (it < s.gm.totalIter) })) (fun _ u => Q u) E t := by
    intro t ht
    rw [wp_bind, wp_self, wp_bind]
    exact hloop t ht
  constructor
  · intro hw
    rw [wp_bind, wp_self]
    cases nG with
    | some k => exact wp_mono (hcold hw k rfl) (fun _ t ht => fin t ht) (fun _ _ h => h)
    | none =>
      cases hn : s.1.gm.nAttr with
      | none =>
        have : (begun ys s.1).gm.nAttr = none := hn
        rw [this]
        exact hnone hw hn
      | some n =>
        have : (begun ys s.1).gm.nAttr = some n := hn
        rw [this]
        exact wp_mono (hcold hw n hn) (fun _ t ht => fin t ht) (fun _ _ h => h)
  · intro hw
    exact fin _ (hwarm (by simpa using hw))

/-- An iteration with a usable start. -/
theorem loop_ready {F : VWorld K m} (hF : Sane F.toMathFun) (he : 0 < W.eps) (hV : Regular V I) (hm : 0 < m) {k : ℕ} (tol : Fl K) {t : VM V m Atom × ℕ}
    (hr : Ready I k t.1) (hy : t.1.gm.y ≠ []) :
    wp ω (varLoop F.toMathFun W tol (t.1.gm.totalIter.toNat + 1) .ninf .pinf 0)
      (fun it u => Ready I k u.1 ∧ (0 < it ∨ Probs k t.1 → Probs k u.1) ∧ u.1.gm.y = t.1.gm.y) (fun _ _ => True) t := by
  refine wp_mono (varLoop_spec tol _ _ _ _ t (by omega)) ?_ (fun _ _ _ => trivial)
  rintro r u ⟨es, h4, h5, _, _, h6, _⟩
  obtain ⟨h7, h8⟩ := h4.ready hF he hV hm hr hy
  refine ⟨h7, ?_, h6⟩
  rintro (h | h)
  · refine h8 (.inl ?_)
    rintro rfl
    simp at h5
    omega
  · exact h8 (.inr h)
end Verif.Mix.VM
