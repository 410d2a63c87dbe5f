import Verif.Lemmas.VarLoop
import Verif.Lemmas.VarRegular
import Verif.Lemmas.VarDemo
import Verif.Props.C50

/-!
# C52 — variational responsibilities are probability vectors

`ProbColumn k c`: the column `c` consists of `k` positive numbers (no infinity, no nan) with sum one.  `Probs k s`: there is one such column per
observation.  Proved, for every weight class that implements the variational interface, all data, all dimensions, all numbers of groups and iterations:
it holds after every iteration when the fit starts with `init_method="random"`, and when it starts with k-means and k-means uses all the groups.

When k-means leaves a group empty (it does so when there are fewer distinct observations than groups), the property fails: everything becomes nan, and
the fit returns and claims to have converged (`C52_empty_group_refuted`).
-/

set_option linter.unusedSectionVars false

namespace Verif.Mix.VM
open Verif.Fl
variable {K : Type} [Field K] [LinearOrder K] [IsStrictOrderedRing K] {m : ℕ} {C : WeightClass K} {V : VarClass C} {Atom : Type}
variable {ω : Oracle K} {W : World K m Atom} {I : C.State → Prop} {F : VWorld K m}

/-- Equal patterns have equally many values. -/
theorem card_of_pattern {n : ℕ} (f g : Fin n → ℕ) (h : ∀ i j, f i = f j ↔ g i = g j) :
    (Finset.univ.image f).card = (Finset.univ.image g).card := by
  classical
  have hk : Setoid.ker f = Setoid.ker g := by
    ext i j; exact h i j
  have h1 : ∀ f : Fin n → ℕ, (Finset.univ.image f).card = Nat.card (Quotient (Setoid.ker f)) := by
    intro f
    rw [Nat.card_congr (Setoid.quotientKerEquivRange f), Nat.card_eq_card_toFinset, Set.toFinset_range]
  rw [h1, h1, hk]

theorem toFinset_eq_image (l : List ℕ) : l.toFinset = Finset.univ.image (fun i : Fin l.length => l[i]) := by
  ext x
  simp only [List.mem_toFinset, Finset.mem_image, Finset.mem_univ, true_and]
  constructor
  · intro hx
    obtain ⟨i, hi, rfl⟩ := List.mem_iff_getElem.1 hx
    exact ⟨⟨i, hi⟩, rfl⟩
  · rintro ⟨i, rfl⟩
    exact List.getElem_mem _

/-- If k-means uses `k` labels, the relabelled groups are exactly `0, …, k-1`. -/
theorem sizeBiased_covers {f : List ℤ → List ℕ} (hf : IsArgsort f) {d : List ℕ} {k : ℕ} (h : d.toFinset.card = k) : ∀ j, j ∈ sizeBiased f d ↔ j < k := by
  obtain ⟨h1, h2, ⟨mm, h3⟩, _⟩ := C50_relabel hf d
  have hc : (sizeBiased f d).toFinset.card = mm := by
    have : (sizeBiased f d).toFinset = Finset.range mm := by
      ext x; rw [List.mem_toFinset, h3, Finset.mem_range]
    rw [this, Finset.card_range]
  have hc2 : (sizeBiased f d).toFinset.card = d.toFinset.card := by
    rw [toFinset_eq_image, toFinset_eq_image]
    have e : (Finset.univ.image (fun i : Fin (sizeBiased f d).length => (sizeBiased f d)[i]))
        = Finset.univ.image (fun i : Fin d.length => (sizeBiased f d)[i.1]'(by rw [h1]; exact i.2)) := by
      ext x
      simp only [Finset.mem_image, Finset.mem_univ, true_and]
      constructor
      · rintro ⟨i, rfl⟩
        exact ⟨⟨i.1, by rw [← h1]; exact i.2⟩, rfl⟩
      · rintro ⟨i, rfl⟩
        exact ⟨⟨i.1, by rw [h1]; exact i.2⟩, rfl⟩
    rw [e]
    apply card_of_pattern
    intro i j
    have hi : i.1 < (sizeBiased f d).length := by rw [h1]; exact i.2
    have hj : j.1 < (sizeBiased f d).length := by rw [h1]; exact j.2
    have := h2 i.1 j.1 _ _ (List.getElem?_eq_getElem hi) (List.getElem?_eq_getElem hj)
    rw [List.getElem?_eq_getElem i.2, List.getElem?_eq_getElem j.2, Option.some_inj] at this
    exact this
  intro j
  rw [h3, ← h, ← hc2, hc]

/-- All further iterations of a usable object. -/
theorem C52_iterations (hF : Sane F.toMathFun) (he : 0 < W.eps) (hV : Regular V I) (hm : 0 < m) {k : ℕ} {s u : VM V m Atom × ℕ} {es : List (Fl K)}
    (h : Iter F.toMathFun W ω s es u) (hes : es ≠ []) (hr : Ready I k s.1) (hy : s.1.gm.y ≠ []) : Probs k u.1 ∧ Ready I k u.1 :=
  ⟨(h.ready hF he hV hm hr hy).2 (.inl hes), (h.ready hF he hV hm hr hy).1⟩

/-- **C52**, `init_method="random"`: whatever the data, the number of groups, `tol`, and the number of iterations that are made, a fit that returns leaves
columns of positive numbers with sum one, and an object from which further iterations (warm starts) do so as well. -/
theorem C52_random (hF : Sane F.toMathFun) (he : 0 < W.eps) (hV : Regular V I) (hm : 0 < m) {ys : List (Fin m → K)} (hy : ys ≠ []) (nG : Option ℤ) (tol : Fl K)
    {s u : VM V m Atom × ℕ} (hI : I s.1.gm.wst.1) (h : fitVariational F W (.rows ys) nG false tol .random ω s = (.ok (), u)) :
    ∃ k : ℕ, startGroups nG s.1 = some (k : ℤ) ∧ Probs k u.1 ∧ Ready I k u.1 ∧ u.1.gm.y = ys := by
  refine wp_of_ok h (fitVariational_wp (E := fun _ _ => True) (Q := fun u => ∃ k : ℕ, startGroups nG s.1 = some (k : ℤ) ∧ Probs k u.1 ∧ Ready I k u.1 ∧ u.1.gm.y = ys)
    (fun t => ∃ k : ℕ, startGroups nG s.1 = some (k : ℤ) ∧ Ready I k t.1 ∧ Probs k t.1 ∧ t.1.gm.y = ys) (fun h => by cases h) ?_ (fun _ _ => trivial) ?_)
  · intro _ k hk
    refine wp_mono (initVar_random hm hV F k (begun ys s.1, s.2) hI) ?_ (fun _ _ h => h)
    rintro _ t ⟨h1, h2, h3, h4⟩
    exact ⟨k.toNat, by rw [hk, Int.toNat_of_nonneg h1.le], h2, h3, h4⟩
  · rintro t ⟨k, h1, h2, h3, h4⟩
    refine wp_mono (loop_ready hF he hV hm tol h2 (by rw [h4]; exact hy)) ?_ (fun _ _ h => h)
    rintro it u ⟨h5, h6, h7⟩
    exact ⟨k, h1, h6 (.inr h3), ⟨h5.varK, h5.pos, h5.theta, h5.atoms, h5.inv, h5.weights⟩, h7.trans h4⟩

/-- **C52**, `init_method="kmeans"` (the default), provided that k-means uses as many labels as groups were asked for. -/
theorem C52_kmeans_partial (hF : Sane F.toMathFun) (he : 0 < W.eps) (hV : Regular V I) (hm : 0 < m) (hsort : IsArgsort W.argsort) {ys : List (Fin m → K)}
    (hy : ys ≠ []) (nG : Option ℤ) (tol : Fl K) {s u : VM V m Atom × ℕ} (hI : I s.1.gm.wst.1)
    (hkm : ∀ k raw, startGroups nG s.1 = some k → W.kmeans s.2 ys k = .ok raw → (raw.toFinset.card : ℤ) = k)
    (h : fitVariational F W (.rows ys) nG false tol .kmeans ω s = (.ok (), u)) (hpos : ∀ k, startGroups nG s.1 = some k → 0 < k) :
    ∃ k : ℕ, startGroups nG s.1 = some (k : ℤ) ∧ Probs k u.1 ∧ Ready I k u.1 ∧ u.1.gm.y = ys := by
  refine wp_of_ok h (fitVariational_wp (E := fun _ _ => True) (Q := fun u => ∃ k : ℕ, startGroups nG s.1 = some (k : ℤ) ∧ Probs k u.1 ∧ Ready I k u.1 ∧ u.1.gm.y = ys)
    (fun t => ∃ k : ℕ, startGroups nG s.1 = some (k : ℤ) ∧ Ready I k t.1 ∧ Probs k t.1 ∧ t.1.gm.y = ys) (fun h => by cases h) ?_ (fun _ _ => trivial) ?_)
  · intro _ k hk
    have h0 := hpos k hk
    refine wp_mono (initVar_kmeans hF he hm hV k (begun ys s.1, s.2) hI h0 ?_) ?_ (fun _ _ h => h)
    · intro raw hraw j hj
      exact (sizeBiased_covers hsort (k := k.toNat) (by have := hkm k raw hk hraw; omega) j).2 hj
    · rintro _ t ⟨h2, h3, h4⟩
      exact ⟨k.toNat, by rw [hk, Int.toNat_of_nonneg h0.le], h2, h3, h4⟩
  · rintro t ⟨k, h1, h2, h3, h4⟩
    refine wp_mono (loop_ready hF he hV hm tol h2 (by rw [h4]; exact hy)) ?_ (fun _ _ h => h)
    rintro it u ⟨h5, h6, h7⟩
    exact ⟨k, h1, h6 (.inr h3), ⟨h5.varK, h5.pos, h5.theta, h5.atoms, h5.inv, h5.weights⟩, h7.trans h4⟩

/-- **C52**, warm starts (also on other data), if at least one iteration is made. -/
theorem C52_warm (hF : Sane F.toMathFun) (he : 0 < W.eps) (hV : Regular V I) (hm : 0 < m) {ys : List (Fin m → K)} (hy : ys ≠ []) (nG : Option ℤ) (tol : K)
    {k : ℕ} {s u : VM V m Atom × ℕ} (hr : Ready I k s.1) (hT : 0 < s.1.gm.totalIter) (method : VarInit)
    (h : fitVariational F W (.rows ys) nG true (.fin tol) method ω s = (.ok (), u)) : Probs k u.1 ∧ Ready I k u.1 ∧ u.1.gm.y = ys := by
  refine wp_of_ok h (fitVariational_wp (E := fun _ _ => True) (Q := fun u => Probs k u.1 ∧ Ready I k u.1 ∧ u.1.gm.y = ys) (fun t => Ready I k t.1 ∧ t.1.gm.y = ys ∧ 0 < t.1.gm.totalIter) ?_ (fun h => by cases h)
    (fun h => by cases h) ?_)
  · exact fun _ => ⟨⟨hr.varK, hr.pos, hr.theta, hr.atoms, hr.inv, hr.weights⟩, rfl, hT⟩
  · rintro t ⟨h2, h4, hT⟩
    have hit : wp ω (varLoop F.toMathFun W (.fin tol) (t.1.gm.totalIter.toNat + 1) .ninf .pinf 0) (fun it _ => 0 < it) (fun _ _ => True) t := by
      refine wp_mono (varLoop_spec (.fin tol) _ _ _ _ t (by omega)) ?_ (fun _ _ _ => trivial)
      rintro r u ⟨es, _, h5, _, _, _, _, h6⟩
      rcases es with _ | ⟨e, es⟩
      · have := h6 (by simpa using hT)
        simp [changes, Fl.lt] at this
      · rw [h5, List.length_cons]; push_cast; positivity
    refine wp_mono (wp_and (loop_ready hF he hV hm (.fin tol) h2 (by rw [h4]; exact hy)) hit) ?_ (fun _ _ h => h.1)
    rintro it u ⟨⟨h5, h6, h7⟩, h8⟩
    exact ⟨h6 (.inl h8), ⟨h5.varK, h5.pos, h5.theta, h5.atoms, h5.inv, h5.weights⟩, h7.trans h4⟩

/-- Hence `log(var_d)` is finite: the entropy term of the ELBO is a number. -/
theorem C52_log {k : ℕ} {s : VM V m Atom} (h : Probs k s) (G : MathFun K) :
    (∀ c ∈ s.varD, ∀ x ∈ c, ∃ p : K, x = .fin p ∧ 0 < p ∧ Fl.log G.log x = .fin (G.log p)) ∧ ∃ x : K, eLogQd G s = .fin x := by
  have key : ∀ c ∈ s.varD, ∀ x ∈ c, ∃ p : K, x = .fin p ∧ 0 < p ∧ Fl.log G.log x = .fin (G.log p) := by
    intro c hc x hx
    obtain ⟨r, rfl, _, hp, _⟩ := h.2 c hc
    obtain ⟨p, hp1, rfl⟩ := List.mem_map.1 hx
    have h0 := hp p hp1
    exact ⟨p, rfl, h0, by rw [Fl.log, if_neg (not_lt.2 h0.le), if_neg h0.ne']⟩
  refine ⟨key, ?_⟩
  have fins : ∀ l : List (Fl K), (∀ x ∈ l, ∃ y : K, x = .fin y) → ∃ y : K, Fl.sum l = .fin y := by
    intro l hl
    have : ∃ r : List K, l = r.map .fin := by
      induction l with
      | nil => exact ⟨[], rfl⟩
      | cons x l ih =>
        obtain ⟨y, rfl⟩ := hl x (by simp)
        obtain ⟨r, rfl⟩ := ih (fun z hz => hl z (by simp [hz]))
        exact ⟨y :: r, rfl⟩
    obtain ⟨r, rfl⟩ := this
    exact ⟨_, sum_fin r⟩
  unfold eLogQd
  apply fins
  intro x hx
  obtain ⟨c, hc, rfl⟩ := List.mem_map.1 hx
  apply fins
  intro y hy
  obtain ⟨z, hz, rfl⟩ := List.mem_map.1 hy
  obtain ⟨p, rfl, h0, hl⟩ := key c hc z hz
  rw [hl]
  exact ⟨_, rfl⟩

/-! ### An empty group -/

/-- Some group has nan parameters. -/
def NanState (k : ℕ) (s : VM V m Atom) : Prop := s.varK = some (k : ℤ) ∧ none ∈ s.varTheta

/-- All responsibilities are nan. -/
def NanCols (k : ℕ) (s : VM V m Atom) : Prop := s.varD = s.gm.y.map (fun _ => List.replicate k .nan)

theorem logWeights_length {c : C.State} {v : V.State} : ∀ {js : List ℕ} {lw : List (Fl K)}, logWeights V c v js = .ok lw → lw.length = js.length
  | [], lw, h => by cases h; rfl
  | j :: js, lw, h => by
    rw [logWeights] at h
    cases h1 : V.meanLogW c v j with
    | error e => rw [h1] at h; cases h
    | ok x =>
      cases h2 : logWeights V c v js with
      | error e => rw [h1, h2] at h; cases h
      | ok xs =>
        rw [h1, h2] at h
        cases h
        simp [logWeights_length h2]

theorem zip_nan (G : MathFun K) (x : Fin m → K) : ∀ (lw : List (Fl K)) (as : List (Option (VAtom K m))), lw.length = as.length → none ∈ as →
    Fl.nan ∈ List.zipWith (fun l a => l + atomScore G x a) lw as
  | [], [], _, h => by cases h
  | [], _ :: _, h, _ => by cases h
  | _ :: _, [], h, _ => by cases h
  | w :: lw, a :: as, h, hn => by
    rw [List.zipWith_cons_cons]
    rcases List.mem_cons.1 hn with hn | hn
    · rw [← hn]
      simp [atomScore]
    · exact List.mem_cons_of_mem _ (zip_nan G x lw as (by simpa using h) hn)

theorem updateVarD_nan (G : MathFun K) {k : ℕ} {s : VM V m Atom × ℕ} (h : NanState k s.1) :
    wp ω (updateVarD G W) (fun _ t => NanState k t.1 ∧ NanCols k t.1 ∧ t.1.gm = s.1.gm) (fun _ _ => True) s := by
  unfold updateVarD
  rw [wp_bind, wp_self, h.1]
  simp only []
  rw [if_neg (by omega), wp_bind, wp_lift]
  refine ⟨?_, fun _ _ => trivial⟩
  intro lw hlw
  have hl := logWeights_length hlw
  rw [List.length_range] at hl
  rw [wp_ite]
  refine ⟨fun _ => trivial, fun hk => ?_⟩
  rw [Int.toNat_natCast, not_lt] at hk
  rw [wp_assign]
  refine ⟨h, ?_, rfl⟩
  unfold NanCols
  apply List.map_congr_left
  intro x _
  rw [normMax_nan]
  · unfold scoreColumn
    simp only [List.length_append, List.length_zipWith, List.length_replicate, hl, min_self, Int.toNat_natCast]
    congr 1
    omega
  · unfold scoreColumn
    exact List.mem_append_left _ (zip_nan G x lw _ hl h.2)

theorem updateVarW_frame {s : VM V m Atom × ℕ} : wp ω (updateVarW (V := V)) (fun _ t => t.1.varK = s.1.varK ∧ t.1.varTheta = s.1.varTheta ∧ t.1.varD = s.1.varD ∧
    t.1.gm.y = s.1.gm.y) (fun _ _ => True) s := by
  unfold updateVarW fitWeights
  simp only [wp_bind, wp_self, wp_lift, wp_assign]
  exact ⟨fun _ _ => by trivial, fun _ _ => trivial⟩

theorem varAtoms_nan {ys : List (Fin m → K)} {p : NIW K m} : ∀ {q : List (List (Fl K))}, (∀ r ∈ q, Fl.nan ∈ r) →
    varAtoms ys p q = .ok (List.replicate q.length none)
  | [], _ => rfl
  | r :: q, h => by
    have h1 : varAtom ys p r = .ok none := by
      unfold varAtom
      rw [numbers_nan (h r (by simp))]
    rw [varAtoms, h1, varAtoms_nan (fun r hr => h r (by simp [hr]))]
    rfl

theorem updateVarTheta_nan {k : ℕ} (hk : 0 < k) {s : VM V m Atom × ℕ} (hK : s.1.varK = some (k : ℤ)) (hy : s.1.gm.y ≠ []) (hc : NanCols k s.1) :
    wp ω updateVarTheta (fun _ t => NanState k t.1 ∧ NanCols k t.1 ∧ t.1.gm.y = s.1.gm.y) (fun _ _ => True) s := by
  unfold updateVarTheta
  rw [wp_bind, wp_self, wp_bind, wp_lift]
  refine ⟨?_, fun _ _ => trivial⟩
  intro as has
  rw [wp_assign]
  refine ⟨⟨hK, ?_⟩, hc, rfl⟩
  have hrow : ∀ r ∈ varRows s.1, Fl.nan ∈ r := by
    intro r hr
    unfold varRows at hr
    rw [hK] at hr
    obtain ⟨j, hj, rfl⟩ := List.mem_map.1 hr
    have hj' : j < k := by simpa using List.mem_range.1 hj
    obtain ⟨y, ys, hys⟩ := List.exists_cons_of_ne_nil hy
    unfold NanCols at hc
    rw [hc, hys, List.map_cons, List.map_cons]
    refine List.mem_cons.2 (.inl ?_)
    rw [List.getElem?_replicate, if_pos hj']
    rfl
  rw [varAtoms_nan hrow] at has
  cases has
  have hlen : (varRows s.1).length = k := by
    unfold varRows
    rw [hK]; simp
  show none ∈ List.replicate (varRows s.1).length none
  rw [hlen]
  exact List.mem_replicate.2 ⟨hk.ne', rfl⟩

theorem maximize_nan (G : MathFun K) {k : ℕ} (hk : 0 < k) {s : VM V m Atom × ℕ} (h : NanState k s.1) (hy : s.1.gm.y ≠ []) :
    wp ω (maximize G W) (fun _ t => NanState k t.1 ∧ NanCols k t.1 ∧ t.1.gm.y = s.1.gm.y) (fun _ _ => True) s := by
  unfold maximize
  rw [wp_bind]
  refine wp_mono (updateVarD_nan G h) ?_ (fun _ _ h => h)
  rintro _ t ⟨h1, h2, h3⟩
  rw [wp_bind]
  refine wp_mono updateVarW_frame ?_ (fun _ _ h => h)
  rintro _ t2 ⟨h4, h5, h6, h7⟩
  have h8 : t2.1.gm.y = s.1.gm.y := by rw [h7, h3]
  refine wp_mono (updateVarTheta_nan hk (h4.trans h1.1) (by rw [h8]; exact hy) ?_) ?_ (fun _ _ h => h)
  · unfold NanCols at h2 ⊢
    rw [h6, h7]; exact h2
  · rintro _ t3 ⟨h9, h10, h11⟩
    exact ⟨h9, h10, h11.trans h8⟩

theorem calcElbo_nan (G : MathFun K) {s : VM V m Atom} (h : none ∈ s.varTheta) {e : Fl K} (he : calcElbo G s = .ok e) : e = .nan := by
  have hpt : ∀ x, eLogPTheta G s = .ok x → x = .nan := by
    intro x hx
    unfold eLogPTheta at hx
    cases hP : matInv (GM.prior s.gm).psi with
    | error e => rw [hP] at hx; cases hx
    | ok P =>
      rw [hP] at hx
      cases hx
      have : Fl.nan ∈ s.varTheta.map (pThetaTerm G (GM.prior s.gm)) := List.mem_map.2 ⟨none, h, rfl⟩
      rw [sum_nan this, nan_add]
      exact nan_add _
  unfold calcElbo at he
  simp only [] at he
  cases h1 : V.meanLogPd s.gm.wst.1 s.vst (varRows s) with
  | error x => rw [h1] at he; cases he
  | ok pd =>
    cases h2 : V.meanLogPw s.gm.wst.1 s.vst with
    | error x => rw [h1, h2] at he; cases he
    | ok pw =>
      cases h3 : eLogPTheta G s with
      | error x => rw [h1, h2, h3] at he; cases he
      | ok pt =>
        rw [h1, h2, h3] at he
        cases he
        rw [hpt pt h3, add_nan, nan_sub, nan_sub, nan_sub]

theorem Iter.nan {G : MathFun K} {k : ℕ} (hk : 0 < k) {s u : VM V m Atom × ℕ} {es : List (Fl K)} (h : Iter G W ω s es u) (hs : NanState k s.1)
    (hy : s.1.gm.y ≠ []) (hc : NanCols k s.1) : NanCols k u.1 ∧ ∀ e ∈ es, e = .nan := by
  induction h with
  | nil s => exact ⟨hc, fun e he => by cases he⟩
  | cons hmax hel rest ih =>
    obtain ⟨h1, h2, h3⟩ := wp_of_ok hmax (maximize_nan (ω := ω) G hk hs hy)
    obtain ⟨h4, h5⟩ := ih h1 (by rw [h3]; exact hy) h2
    refine ⟨h4, ?_⟩
    intro e he
    rcases List.mem_cons.1 he with rfl | he
    · exact calcElbo_nan G h1.2 hel
    · exact h5 e he

/-- **C52 fails** for k-means with an empty group: for every weight class, all data and all settings, if `k` groups are asked for, k-means returns labels
such that some group below `k` is empty, and the fit returns, then every responsibility of every observation is nan; and if at least two iterations
were allowed, `var_converged` is `True`. -/
theorem C52_empty_group_refuted {ys : List (Fin m → K)} (hy : ys ≠ []) {nG : Option ℤ} {tol : Fl K} {s u : VM V m Atom × ℕ} {k : ℕ}
    (hk : startGroups nG s.1 = some (k : ℤ)) {raw : List ℕ} (hraw : W.kmeans s.2 ys k = .ok raw) {j : ℕ} (hj : j < k)
    (hempty : j ∉ sizeBiased W.argsort raw) (h : fitVariational F W (.rows ys) nG false tol .kmeans ω s = (.ok (), u)) :
    u.1.varD = ys.map (fun _ => List.replicate k .nan) ∧ u.1.varFitted = true ∧ (2 ≤ s.1.gm.totalIter → u.1.varConverged = true) := by
  have hkp : 0 < k := by omega
  refine wp_of_ok h (fitVariational_wp (E := fun _ _ => True)
    (Q := fun u => u.1.varD = ys.map (fun _ => List.replicate k .nan) ∧ u.1.varFitted = true ∧ (2 ≤ s.1.gm.totalIter → u.1.varConverged = true))
    (fun t => NanState k t.1 ∧ NanCols k t.1 ∧ t.1.gm.y = ys ∧ t.1.gm.totalIter = s.1.gm.totalIter)
    (fun h => by cases h) ?_ (fun _ _ => trivial) ?_)
  · intro _ k' hk'
    rw [hk] at hk'
    cases hk'
    unfold initVar
    rw [wp_bind, wp_assign, wp_bind, wp_self, wp_bind, wp_draw, wp_bind, wp_lift]
    refine ⟨?_, fun _ _ => trivial⟩
    intro raw' hraw'
    rw [show W.kmeans s.2 (begun ys s.1).gm.y (k : ℤ) = .ok raw from hraw] at hraw'
    cases hraw'
    rw [if_neg (by omega), wp_ite]
    refine ⟨fun _ => trivial, fun _ => ?_⟩
    rw [wp_bind, wp_assign, wp_bind]
    unfold fitWeights
    rw [wp_bind, wp_self, wp_bind, wp_lift]
    refine ⟨?_, fun _ _ => trivial⟩
    intro r hr
    rw [wp_assign, wp_bind]
    unfold updateVarTheta
    rw [wp_bind, wp_self, wp_bind, wp_lift]
    refine ⟨?_, fun _ _ => trivial⟩
    intro as has
    rw [wp_assign, wp_bind]
    have hnone : none ∈ as := by
      have gen : ∀ (q : List (List (Fl K))) (as : List (Option (VAtom K m))) (p : NIW K m) (r : List K), varAtoms ys p q = .ok as → r.map Fl.fin ∈ q → r.sum = 0 →
          none ∈ as := by
        intro q
        induction q with
        | nil => intro as p r _ hr _; cases hr
        | cons x q ih =>
          intro as p r h hr h0
          rw [varAtoms] at h
          cases h1 : varAtom ys p x with
          | error e => rw [h1] at h; cases h
          | ok a =>
            cases h2 : varAtoms ys p q with
            | error e => rw [h1, h2] at h; cases h
            | ok as' =>
              rw [h1, h2] at h
              cases h
              rcases List.mem_cons.1 hr with hr | hr
              · rw [← hr] at h1
                unfold varAtom at h1
                rw [numbers_fin] at h1
                simp only [if_pos h0] at h1
                cases h1
                exact List.mem_cons_self
              · exact List.mem_cons_of_mem _ (ih as' p r h2 hr h0)
      refine gen _ as _ ((sizeBiased W.argsort raw).map (fun x => if j = x then (1 : K) else 0)) has ?_ ?_
      · unfold varRows
        refine List.mem_map.2 ⟨j, by simpa using hj, ?_⟩
        simp only [Int.toNat_natCast]
        exact onehot_row hj
      · have : ∀ l : List ℕ, j ∉ l → (l.map (fun x => if j = x then (1 : K) else 0)).sum = 0 := by
          intro l hl
          induction l with
          | nil => rfl
          | cons x l ih =>
            rw [List.mem_cons, not_or] at hl
            rw [List.map_cons, List.sum_cons, ih hl.2, if_neg hl.1, zero_add]
        exact this _ hempty
    refine wp_mono (updateVarD_nan (k := k) _ ⟨rfl, hnone⟩) ?_ (fun _ _ h => h)
    rintro _ t ⟨h1, h2, h3⟩
    have hset : wp ω (updateVarW (V := V)) (fun _ u => u.1.gm.totalIter = t.1.gm.totalIter) (fun _ _ => True) t := by
      unfold updateVarW fitWeights
      simp only [wp_bind, wp_self, wp_lift, wp_assign]
      exact ⟨fun _ _ => by trivial, fun _ _ => trivial⟩
    refine wp_mono (wp_and updateVarW_frame hset) ?_ (fun _ _ _ => trivial)
    rintro _ t2 ⟨⟨h4, h5, h6, h7⟩, h8⟩
    refine ⟨⟨h4.trans h1.1, by rw [h5]; exact h1.2⟩, ?_, ?_, ?_⟩
    · unfold NanCols at h2 ⊢
      rw [h6, h7]; exact h2
    · rw [h7, h3]; rfl
    · rw [h8, h3]; rfl
  · rintro t ⟨h1, h2, h3, h4⟩
    refine wp_mono (varLoop_spec tol _ _ _ _ t (by omega)) ?_ (fun _ _ _ => trivial)
    rintro r u ⟨es, h5, h6, h7, h8, h9, h10, h11⟩
    obtain ⟨h12, h13⟩ := h5.nan hkp h1 (by rw [h3]; exact hy) h2
    refine ⟨?_, rfl, ?_⟩
    · show u.1.varD = _
      unfold NanCols at h12
      rw [h12, h9, h3]
    · intro hT
      have hle : es.length ≤ 1 := by
        by_contra hc
        push Not at hc
        rcases es with _ | ⟨e, _ | ⟨e', es⟩⟩
        · simp at hc
        · simp at hc
        · have he := h13 e (by simp)
          have := (h10 1 (by simp)).2
          rw [he] at this
          simp [changes, Fl.abs] at this
          cases tol <;> simp [Fl.lt] at this
      show (u.1.varConverged || decide (r < u.1.gm.totalIter)) = true
      rw [h7, h4, h6]
      have : (0 : ℤ) + es.length < s.1.gm.totalIter := by omega
      simp only [decide_eq_true this, Bool.or_true]

/-! ### The hypotheses can be met -/

theorem world_argsort : IsArgsort world.argsort := argsortDemo_spec

example : Sane vworld.toMathFun ∧ 0 < world.eps ∧ Regular (varDP demoFun) (fun _ => True) := ⟨demoFun_sane, by decide +kernel, regular_DP⟩
example : returns (fitVariational vworld world (rows1 [0, 1, 5, 7]) (some 2) false (.fin 0) .random) demo (dpVM 2, 0) = true := by decide +kernel
example : returns (fitVariational vworld world (rows1 [0, 1, 5, 7]) (some 2) false (.fin 0) .kmeans) demo (dpVM 2, 0) = true := by decide +kernel
example : world.kmeans 0 (List.map (fun x _ => x) [0, 1, 5, 7]) 2 = .ok [0, 1, 0, 1] := by decide +kernel
example : ([0, 1, 0, 1] : List ℕ).toFinset.card = 2 := by decide +kernel

/-- Four equal observations and two groups: the fit returns. -/
example : returns (fitVariational vworld lumpWorld (rows1 [3, 3, 3, 3]) (some 2) false (.fin 0) .kmeans) demo
    ({ dpVM 5 with gm := { (dpVM 5).gm with psiPrior := some (fun _ _ => 1) } }, 0) = true := by decide +kernel
example : 1 ∉ sizeBiased lumpWorld.argsort [0, 0, 0, 0] := by decide +kernel

/-- Every class that implements the variational interface. -/
theorem C52_classes (G : MathFun K) (H : MathFun ℝ) : Regular (varDP G) (fun _ => True) ∧ Regular (varPY G) (fun _ => True) ∧ Regular (varGeo H) (fun _ => True) ∧
    Regular (varDirDist G) (fun c => (show DirDist K from c).alpha ≠ []) ∧ Regular (varEqual G) (fun _ => True) ∧
    Regular (varFreq G) (fun c => 1 ≤ (show Freq K from c).n) :=
  ⟨regular_DP, regular_PY, regular_Geo, regular_DirDist, regular_Equal, regular_Freq⟩
end Verif.Mix.VM
