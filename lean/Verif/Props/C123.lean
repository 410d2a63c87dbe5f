import Verif.Props.C53
import Verif.Props.C110
import Verif.Lemmas.VarRegular
import Verif.Lemmas.VarReal

/-!
# C123: a variational fit on legal input returns, and every value of the bound it looks at is a number

Legal input: at least one observation with at least one coordinate, a proper prior (given or computed from the data), at least one iteration, and a legal start (`LegalStart`).  The special functions are
the real ones.

* `C123_elbo`: the bound is a number when the groups have proper parameters and the responsibilities are positive.  `C123_step`, `C123_loop`: no iteration raises, and the bound after it is a number.
* `C123_fit`: the fit returns, for each start; afterwards all groups have proper parameters and the responsibilities are positive.
* `C123_flag`: `var_converged` tells the truth, with no assumption on the values of the bound (`C53_truthful_partial` has one).
* `C123_classes`: all six weight classes meet the conditions.
* `C123_groups_refuted`, `C123_equal_refuted`: a number of groups that differs from the number of weights of the Dirichlet distribution, and equal observations with the default prior, raise.
  An empty group of k-means gives nan (`C52_empty_group_refuted`).
-/

set_option linter.unusedSectionVars false

namespace Verif.Mix.VM
open Matrix
open Verif.Fl (fin matrix_fin)
variable {m : ℕ} {C : WeightClass ℝ} {V : VarClass C} {Atom : Type} {ω : Oracle ℝ} {W : World ℝ m Atom} {J : C.State → Prop}

/-- The variational methods of a weight class work for `k` groups, for settings in `J`: `fit_variational` accepts every matrix of numbers with `k` rows; after it the two terms of the bound that
the weight class computes are numbers, for the matrix just fitted, if its entries are positive and it has columns. -/
structure Able (V : VarClass C) (J : C.State → Prop) (k : ℕ) : Prop where
  fit : ∀ (c : C.State) (q : List (List ℝ)), J c → q.length = k → ∃ r, V.fit c (q.map (fun r => r.map fin)) = .ok r
  terms : ∀ (c : C.State) (q : List (List ℝ)) (c' : C.State) (v : V.State), J c → q.length = k → (∀ r ∈ q, r ≠ [] ∧ ∀ x ∈ r, 0 < x) →
    V.fit c (q.map (fun r => r.map fin)) = .ok (c', v) →
    (∃ x : ℝ, V.meanLogPd c' v (q.map (fun r => r.map fin)) = .ok (fin x)) ∧ ∃ x : ℝ, V.meanLogPw c' v = .ok (fin x)

/-- The terms of the weight class are numbers. -/
def Termed (s : VM V m Atom) : Prop :=
  (∃ x : ℝ, V.meanLogPd s.gm.wst.1 s.vst (varRows s) = .ok (fin x)) ∧ ∃ x : ℝ, V.meanLogPw s.gm.wst.1 s.vst = .ok (fin x)

theorem fitted_of {k : ℕ} {s : VM V m Atom} (hr : Ready J k s) (hpr : Probs k s) (hP : Proper s) (hy : s.gm.y ≠ []) : ∃ q as, Fitted s q as := by
  obtain ⟨q, hq, hl, hpos⟩ := rows_of_columns hr.varK hpr.2
  obtain ⟨as, has, hasp⟩ : ∃ as : List (VAtom ℝ m), s.varTheta = as.map some ∧ ∀ a ∈ as, ProperAtom a := by
    have : ∀ l : List (Option (VAtom ℝ m)), (∀ a ∈ l, ∃ b : VAtom ℝ m, a = some b ∧ ProperAtom b) → ∃ as : List (VAtom ℝ m), l = as.map some ∧ ∀ a ∈ as, ProperAtom a := by
      intro l
      induction l with
      | nil => exact fun _ => ⟨[], rfl, fun a ha => by cases ha⟩
      | cons a l ih =>
        intro h
        obtain ⟨b, rfl, hb⟩ := h a (List.mem_cons_self ..)
        obtain ⟨as, rfl, has⟩ := ih fun a ha => h a (List.mem_cons_of_mem _ ha)
        refine ⟨b :: as, rfl, fun c hc => ?_⟩
        rcases List.mem_cons.1 hc with rfl | hc
        · exact hb
        · exact has c hc
    exact this _ hP
  have hlen : as.length = k := by have := hr.theta; rw [has, List.length_map] at this; exact this
  refine ⟨q, as, ⟨by rw [hlen]; exact hr.varK, has, hq, hl.trans hlen.symm, fun r hr' => ?_, hasp⟩⟩
  refine ⟨(hpos r hr').1.trans hpr.1, (sum_pos_of_pos ?_ (hpos r hr').2).ne'⟩
  intro h0
  have := (hpos r hr').1
  rw [h0, hpr.1] at this
  exact hy (List.length_eq_zero_iff.1 this.symm)

/-- **The bound is a number** whenever the groups have proper parameters, the responsibilities are positive and the terms of the weight class are numbers. -/
theorem C123_elbo (hm : 0 < m) {k : ℕ} {s : VM V m Atom} (hr : Ready J k s) (hpr : Probs k s) (hP : Proper s) (hy : s.gm.y ≠ []) (hp : ProperPrior (GM.prior s.gm))
    (hT : Termed s) : ∃ e : ℝ, calcElbo realFun s = .ok (fin e) := by
  obtain ⟨q, as, h⟩ := fitted_of hr hpr hP hy
  choose! L hL using fun a (ha : a ∈ as) => exists_factor (h.proper a ha).prec
  obtain ⟨qs, _, hqd, _⟩ := C110_labels hpr
  obtain ⟨⟨x, hx⟩, y, hy⟩ := hT
  unfold calcElbo
  rw [C110_data hm h hL, C110_prior hm h hp hL, C110_posterior hm h hL, hqd, hx, hy]
  exact ⟨_, rfl⟩

theorem updateVarD_total {F : MathFun ℝ} (hF : Sane F) (he : 0 < W.eps) {k : ℕ} {s : VM V m Atom × ℕ} (h : Ready J k s.1) :
    wp ω (updateVarD F W) (fun _ t => Ready J k t.1 ∧ Probs k t.1 ∧ t.1.gm = s.1.gm) (fun _ _ => False) s := by
  have hn : wp ω (updateVarD F W) (fun _ _ => True) (fun _ _ => False) s := by
    obtain ⟨lw, h1, h2⟩ := column_prob (eps := W.eps) hF he h
    unfold updateVarD
    rw [wp_bind, wp_self, h.varK]
    simp only []
    rw [if_neg (by omega), wp_bind, wp_lift]
    refine ⟨fun lw' _ => ?_, fun e hlw => ?_⟩
    · rw [if_neg (by rw [h.theta]; simp), wp_assign]
      trivial
    · rw [h1] at hlw
      cases hlw
  exact wp_mono (wp_and hn (updateVarD_ready hF he h)) (fun _ _ h => h.2) (fun _ _ h => h.1)

theorem updateVarW_total (hA : Able V J k) (hV : Regular V J) (hk : 0 < k) {s : VM V m Atom × ℕ} (hK : s.1.varK = some (k : ℤ)) (hJ : J s.1.gm.wst.1) (hp : Probs k s.1)
    (hy : s.1.gm.y ≠ []) :
    wp ω updateVarW (fun _ t => Termed t.1 ∧ (J t.1.gm.wst.1 ∧ FittedBy V J k t.1.gm.wst.1 t.1.vst) ∧ (∃ f : ℕ → WithBot ℝ, (∀ j < k, V.meanLogW t.1.gm.wst.1 t.1.vst j = .ok (Fl.ofBot (f j))) ∧
        ∃ x : ℝ, f 0 = (x : WithBot ℝ)) ∧ t.1.varK = s.1.varK ∧ t.1.varTheta = s.1.varTheta ∧ t.1.varD = s.1.varD ∧ t.1.gm.y = s.1.gm.y ∧
        GM.prior t.1.gm = GM.prior s.1.gm ∧ t.1.gm.totalIter = s.1.gm.totalIter) (fun _ _ => False) s := by
  have hn : wp ω updateVarW (fun _ t => Termed t.1) (fun _ _ => False) s := by
    obtain ⟨q, hq, hl, hpos⟩ := rows_of_columns hK hp.2
    have hpos' : ∀ r ∈ q, r ≠ [] ∧ ∀ x ∈ r, 0 < x := by
      intro r hr
      refine ⟨?_, (hpos r hr).2⟩
      intro h0
      have := (hpos r hr).1
      rw [h0, hp.1] at this
      exact hy (List.length_eq_zero_iff.1 this.symm)
    obtain ⟨r, hr⟩ := hA.fit _ q hJ hl
    unfold updateVarW fitWeights
    simp only [wp_bind, wp_self, wp_lift, wp_assign]
    rw [hq, hr]
    refine ⟨fun r' h => ?_, fun e h => by cases h⟩
    cases h
    have := hA.terms _ q r.1 r.2 hJ hl hpos' hr
    have e : ∀ (g : GM C m Atom) (v : V.State), varRows ({ s.1 with gm := g, vst := v } : VM V m Atom) = varRows s.1 := fun _ _ => rfl
    refine ⟨?_, this.2⟩
    obtain ⟨x, hx⟩ := this.1
    refine ⟨x, ?_⟩
    show V.meanLogPd r.1 r.2 (varRows s.1) = _
    rw [hq]
    exact hx
  exact wp_mono (wp_and hn (wp_and (updateVarW_prior) (updateVarW_ready hV hk hK hJ hp)))
    (fun _ _ h => ⟨h.1, h.2.2.1.1, h.2.2.1.2, h.2.2.2.1, h.2.2.2.2.1, h.2.2.2.2.2.1, h.2.2.2.2.2.2, h.2.1.1, h.2.1.2⟩) (fun _ _ h => h.1)

/-- What holds after every iteration. -/
structure Good (J : C.State → Prop) (k : ℕ) (s : VM V m Atom) : Prop where
  ready : Ready J k s
  probs : Probs k s
  proper : Proper s
  number : ∃ e : ℝ, calcElbo realFun s = .ok (fin e)

/-- **One iteration** does not raise, and the bound after it is a number. -/
theorem C123_step (he : 0 < W.eps) (hV : Regular V J) (hm : 0 < m) {k : ℕ} (hA : Able V J k) {s : VM V m Atom × ℕ} (h : Ready J k s.1) (hy : s.1.gm.y ≠ [])
    (hp : ProperPrior (GM.prior s.1.gm)) :
    wp ω (maximize realFun W) (fun _ t => Good J k t.1 ∧ t.1.gm.y = s.1.gm.y ∧ GM.prior t.1.gm = GM.prior s.1.gm ∧ t.1.gm.totalIter = s.1.gm.totalIter) (fun _ _ => False) s := by
  have hn : wp ω (maximize realFun W) (fun _ t => Termed t.1 ∧ t.1.gm.totalIter = s.1.gm.totalIter) (fun _ _ => False) s := by
    unfold maximize
    rw [wp_bind]
    refine wp_mono (updateVarD_total realFun_sane he h) ?_ (fun _ _ h => h)
    rintro _ t ⟨hr, hd, hg⟩
    rw [wp_bind]
    refine wp_mono (updateVarW_total hA hV h.pos hr.varK hr.inv.1 hd (by rw [hg]; exact hy)) ?_ (fun _ _ h => h)
    rintro _ t2 ⟨hterm, _, _, hk, _, hdd, hy2, hpr2, hit⟩
    have hd2 : Probs k t2.1 := by
      unfold Probs at hd ⊢
      rw [hdd, hy2]; exact hd
    have hyy : t2.1.gm.y ≠ [] := by rw [hy2, hg]; exact hy
    have hp2 : ProperPrior (GM.prior t2.1.gm) := by rw [hpr2, hg]; exact hp
    have hkeep : wp ω updateVarTheta (fun _ t3 => Termed t3.1 ∧ t3.1.gm.totalIter = t2.1.gm.totalIter) (fun _ _ => True) t2 := by
      unfold updateVarTheta
      simp only [wp_bind, wp_self, wp_lift, wp_assign]
      exact ⟨fun _ _ => ⟨hterm, by trivial⟩, fun _ _ => trivial⟩
    refine wp_mono (wp_and (C109_update (hk.trans hr.varK) hyy hd2 hp2) hkeep) ?_ (fun _ _ h => h.1)
    rintro _ t3 ⟨_, h1, h2⟩
    exact ⟨h1, by rw [h2, hit, hg]⟩
  refine wp_mono (wp_and hn (wp_and (C109_step realFun_sane he hV h hy hp) (wp_and (maximize_prior (F := realFun)) (maximize_ready realFun_sane he hV hm h hy)))) ?_ (fun _ _ h => h.1)
  rintro _ t ⟨⟨h1, h5⟩, h2, h3, h4, h6, h7⟩
  exact ⟨⟨h4, h6, h2, C123_elbo hm h4 h6 h2 (by rw [h7]; exact hy) (by rw [h3]; exact hp) h1⟩, h7, h3, h5⟩

theorem Iter.numbers (he : 0 < W.eps) (hV : Regular V J) (hm : 0 < m) {k : ℕ} (hA : Able V J k) {s u : VM V m Atom × ℕ} {es : List (Fl ℝ)} (h : Iter realFun W ω s es u)
    (hr : Ready J k s.1) (hy : s.1.gm.y ≠ []) (hp : ProperPrior (GM.prior s.1.gm)) : ∀ e ∈ es, ∃ x : ℝ, e = fin x := by
  induction h with
  | nil s => exact fun e he => by cases he
  | cons hmax hel rest ih =>
    obtain ⟨h1, h2, h3, h4⟩ := wp_of_ok hmax (C123_step (ω := ω) he hV hm hA hr hy hp)
    obtain ⟨x, hx⟩ := h1.number
    rw [hx] at hel
    cases hel
    intro e he'
    rcases List.mem_cons.1 he' with rfl | he'
    · exact ⟨x, rfl⟩
    · exact ih h1.ready (by rw [h2]; exact hy) (by rw [h3]; exact hp) e he'

/-- **The loop** does not raise. -/
theorem C123_loop (he : 0 < W.eps) (hV : Regular V J) (hm : 0 < m) {k : ℕ} (hA : Able V J k) (tol : Fl ℝ) : ∀ (n : ℕ) (elbo diff : Fl ℝ) (it : ℤ) (s : VM V m Atom × ℕ),
    (s.1.gm.totalIter - it).toNat < n → Ready J k s.1 → s.1.gm.y ≠ [] → ProperPrior (GM.prior s.1.gm) →
    wp ω (varLoop realFun W tol n elbo diff it) (fun _ _ => True) (fun _ _ => False) s := by
  intro n
  induction n with
  | zero => intro elbo diff it s h; omega
  | succ n ih =>
    intro elbo diff it s hn hr hy hp
    unfold varLoop
    rw [wp_bind, wp_self, wp_ite]
    constructor
    · rintro ⟨hc, hit⟩
      rw [wp_bind]
      refine wp_mono (C123_step he hV hm hA hr hy hp) ?_ (fun _ _ h => h)
      rintro _ t ⟨h1, h2, h3, h4⟩
      obtain ⟨x, hx⟩ := h1.number
      rw [wp_bind, wp_self, wp_bind, wp_lift, hx]
      refine ⟨fun e _ => ?_, fun e h => by cases h⟩
      exact ih _ _ _ t (by rw [h4]; omega) h1.ready (by rw [h2]; exact hy) (by rw [h3]; exact hp)
    · intro _
      rw [wp_pure]
      trivial

/-! ### The start -/

/-- A legal way to start a fit with `k` groups: a warm start of an object that has `k` usable groups; or a cold start with at least one group and settings in `J`, either at random, if
the covariances that are drawn are invertible, or with k-means, if it returns as many labels as groups were asked for. -/
inductive LegalStart (F : VWorld ℝ m) (W : World ℝ m Atom) (J : C.State → Prop) (ys : List (Fin m → ℝ)) (nG : Option ℤ) (k : ℕ) (s : VM V m Atom × ℕ) : Bool → VarInit → Prop
  | warm (method) (h : Ready J k s.1) : LegalStart F W J ys nG k s true method
  | random (hk : startGroups nG s.1 = some (k : ℤ)) (h0 : 0 < k) (hJ : J s.1.gm.wst.1)
      (hd : ∀ p, (Matrix.of (F.niw p (GM.prior (begun ys s.1).gm)).2).det ≠ 0) : LegalStart F W J ys nG k s false .random
  | kmeans (hk : startGroups nG s.1 = some (k : ℤ)) (h0 : 0 < k) (hJ : J s.1.gm.wst.1) (raw : List ℕ) (hraw : W.kmeans s.2 ys k = .ok raw)
      (hc : raw.toFinset.card = k) : LegalStart F W J ys nG k s false .kmeans

theorem drawAtoms_total (F : VWorld ℝ m) : ∀ (n : ℕ) (s : VM V m Atom × ℕ), (∀ p, (Matrix.of (F.niw p (GM.prior s.1.gm)).2).det ≠ 0) →
    wp ω (drawAtoms F n) (fun _ t => t.1.gm = s.1.gm) (fun _ _ => False) s := by
  intro n
  induction n with
  | zero => intro s _; exact rfl
  | succ n ih =>
    intro s hd
    unfold drawAtoms
    rw [wp_bind, wp_self, wp_bind, wp_draw, wp_bind, wp_lift]
    refine ⟨fun P _ => ?_, fun e h => ?_⟩
    · rw [wp_bind, wp_assign]
      exact wp_mono (ih _ hd) (fun _ t h => h) (fun _ _ h => h)
    · unfold matInv at h
      rw [if_neg (hd s.2)] at h
      cases h

/-- What the loop starts from. -/
structure Begin (J : C.State → Prop) (ys : List (Fin m → ℝ)) (k : ℕ) (s t : VM V m Atom) : Prop where
  ready : Ready J k t
  y : t.gm.y = ys
  prior : GM.prior t.gm = GM.prior (begun ys s).gm
  iter : t.gm.totalIter = s.gm.totalIter

theorem initVar_random_total (hV : Regular V J) (hm : 0 < m) {F : VWorld ℝ m} {k : ℕ} (hA : Able V J k) (h0 : 0 < k) {ys : List (Fin m → ℝ)} (hy : ys ≠ []) {s : VM V m Atom × ℕ}
    (hJ : J s.1.gm.wst.1) (hd : ∀ p, (Matrix.of (F.niw p (GM.prior (begun ys s.1).gm)).2).det ≠ 0) :
    wp ω (initVar F W (k : ℤ) .random) (fun _ t => Begin J ys k s.1 t.1) (fun _ _ => False) (begun ys s.1, s.2) := by
  have hn : wp ω (initVar F W (k : ℤ) .random) (fun _ _ => True) (fun _ _ => False) (begun ys s.1, s.2) := by
    unfold initVar
    rw [wp_bind, wp_assign, wp_bind]
    refine wp_mono (wp_and (drawAtoms_total F _ _ hd) (drawAtoms_ok hm F _ (n := 0) _ ⟨rfl, fun a ha => by cases ha⟩)) ?_ (fun _ _ h => h.1)
    rintro _ t ⟨ht, _, hk2, _, _⟩
    have hk0 : (k : ℤ) ≠ 0 := by exact_mod_cast h0.ne'
    rw [if_neg hk0, if_neg (by omega), wp_bind, wp_assign]
    refine wp_mono (updateVarW_total hA hV h0 (s := ({ t.1 with varD := _ }, t.2)) hk2 ?_ ?_ ?_) (fun _ _ _ => trivial) (fun _ _ h => h)
    · show J t.1.gm.wst.1
      rw [ht]; exact hJ
    · refine ⟨by simp, ?_⟩
      intro c hc
      obtain ⟨y, _, rfl⟩ := List.mem_map.1 hc
      have hK : (0 : ℝ) < k := by exact_mod_cast h0
      refine ⟨List.replicate k (1 / (k : ℝ)), by rw [List.map_replicate]; simp, by simp, ?_, ?_⟩
      · intro x hx
        rw [List.eq_of_mem_replicate hx]
        positivity
      · rw [List.sum_replicate, nsmul_eq_mul]
        field_simp
    · show t.1.gm.y ≠ []
      rw [ht]; exact hy
  refine wp_mono (wp_and hn (wp_and (initVar_random hm hV F (k : ℤ) (begun ys s.1, s.2) hJ) (initVar_prior F (k : ℤ)))) ?_ (fun _ _ h => h.1)
  rintro _ t ⟨_, ⟨_, h2, _, h4⟩, h5, h6⟩
  exact ⟨by simpa using h2, h4, h5, h6⟩

theorem onehot_pos {j : ℕ} : ∀ l : List ℕ, j ∈ l → 0 < (l.map (fun x => if j = x then (1 : ℝ) else 0)).sum := by
  intro l hl
  induction l with
  | nil => cases hl
  | cons x l ih =>
    rw [List.map_cons, List.sum_cons]
    have h0 : 0 ≤ (l.map (fun x => if j = x then (1 : ℝ) else 0)).sum := by
      apply List.sum_nonneg
      intro y hy
      obtain ⟨z, _, rfl⟩ := List.mem_map.1 hy
      split <;> norm_num
    by_cases hx : j = x
    · rw [if_pos hx]; positivity
    · rw [if_neg hx, zero_add]
      exact ih ((List.mem_cons.1 hl).resolve_left hx)

theorem initVar_kmeans_total (he : 0 < W.eps) (hsort : IsArgsort W.argsort) (hV : Regular V J) (hm : 0 < m) {F : VWorld ℝ m} (hF : F.toMathFun = realFun) {k : ℕ} (hA : Able V J k) (h0 : 0 < k)
    {ys : List (Fin m → ℝ)} (hy : ys ≠ []) {s : VM V m Atom × ℕ} (hJ : J s.1.gm.wst.1) (hp : ProperPrior (GM.prior (begun ys s.1).gm)) {raw : List ℕ}
    (hraw : W.kmeans s.2 ys k = .ok raw) (hc : raw.toFinset.card = k) :
    wp ω (initVar F W (k : ℤ) .kmeans) (fun _ t => Begin J ys k s.1 t.1) (fun _ _ => False) (begun ys s.1, s.2) := by
  have hcov := sizeBiased_covers hsort hc
  unfold initVar
  rw [wp_bind, wp_assign, wp_bind, wp_self, wp_bind, wp_draw, wp_bind, wp_lift]
  have hr' : W.kmeans s.2 (begun ys s.1).gm.y k = .ok raw := hraw
  refine ⟨?_, fun e h => by rw [show W.kmeans s.2 (begun ys s.1).gm.y k = .ok raw from hraw] at h; cases h⟩
  intro raw' h
  rw [show W.kmeans s.2 (begun ys s.1).gm.y k = .ok raw from hraw] at h
  cases h
  rw [if_neg (by omega), if_neg (by
    rintro ⟨x, hx, hk⟩
    have := (hcov x).1 hx
    simp at hk
    omega), wp_bind, wp_assign, wp_bind]
  unfold fitWeights
  rw [wp_bind, wp_self, wp_bind, wp_lift]
  obtain ⟨r, hr⟩ := hA.fit s.1.gm.wst.1 (List.replicate k []) hJ (by simp)
  have hr2 : V.fit s.1.gm.wst.1 (List.replicate k []) = .ok r := by rw [← hr, List.map_replicate]; rfl
  have hreg := hV _ (List.replicate k []) r.1 r.2 hJ (by simp; omega) hr
  rw [List.length_replicate] at hreg
  refine ⟨?_, fun e h => by
    simp only [Int.toNat_natCast] at h
    rw [show V.fit (begun ys s.1).gm.wst.1 (List.replicate k []) = .ok r from hr2] at h; cases h⟩
  intro r' h
  simp only [Int.toNat_natCast] at h
  rw [show V.fit (begun ys s.1).gm.wst.1 (List.replicate k []) = .ok r from hr2] at h
  cases h
  rw [wp_assign, wp_bind]
  unfold updateVarTheta
  rw [wp_bind, wp_self, wp_bind, wp_lift]
  have hrows : ∀ s' : VM V m Atom, s'.varK = some (k : ℤ) → s'.varD = (sizeBiased W.argsort raw).map (oneHot k) →
      varRows s' = ((List.range k).map (fun j => (sizeBiased W.argsort raw).map (fun x => if j = x then (1 : ℝ) else 0))).map (fun r => r.map fin) := by
    intro s' h1 h2
    unfold varRows
    rw [h1, h2, List.map_map]
    apply List.map_congr_left
    intro j hj
    exact onehot_row (List.mem_range.1 hj)
  simp only [Int.toNat_natCast]
  rw [hrows _ rfl rfl]
  have hpos : ∀ r ∈ (List.range k).map (fun j => (sizeBiased W.argsort raw).map (fun x => if j = x then (1 : ℝ) else 0)), (∀ v ∈ r, 0 ≤ v) ∧ 0 < r.sum := by
    intro r hr
    obtain ⟨j, hj, rfl⟩ := List.mem_map.1 hr
    refine ⟨?_, onehot_pos _ ((hcov j).2 (List.mem_range.1 hj))⟩
    intro v hv
    obtain ⟨x, _, rfl⟩ := List.mem_map.1 hv
    split <;> norm_num
  obtain ⟨as, has, hla, hpa⟩ := varAtoms_proper (ys := ys) hp hpos
  refine ⟨?_, fun e h => by have h' := has.symm.trans h; cases h'⟩
  intro as' h
  have h' := has.symm.trans h
  cases h'
  clear h
  have hatoms := varAtoms_ok hm (fun r hr => (hpos r hr).2) has
  rw [List.length_map, List.length_range] at hatoms
  rw [wp_assign, wp_bind]
  have hready : Ready J k ({ begun ys s.1 with
      varK := some (k : ℤ), varD := (sizeBiased W.argsort raw).map (oneHot k), gm := { (begun ys s.1).gm with wst := (r.1, (begun ys s.1).gm.wst.2) }, vst := r.2,
      varTheta := as.map some } : VM V m Atom) :=
    ⟨rfl, h0, hatoms.1, hatoms.2, ⟨hreg.1, _, List.replicate k [], hJ, by simp, hr⟩, hreg.2⟩
  rw [hF]
  refine wp_mono (updateVarD_total (J := J) (k := k) realFun_sane he hready) ?_ (fun _ _ h => h)
  rintro _ t ⟨h1, h2, h3⟩
  refine wp_mono (updateVarW_total hA hV h0 h1.varK h1.inv.1 h2 (by rw [h3]; exact hy)) ?_ (fun _ _ h => h)
  rintro _ u ⟨_, hi, hw, hk2, ht2, hd2, hy2, hpr2, hit2⟩
  refine ⟨⟨hk2.trans h1.varK, h0, by rw [ht2]; exact h1.theta, by rw [ht2]; exact h1.atoms, hi, hw⟩, ?_, ?_, ?_⟩
  · rw [hy2, h3]; rfl
  · rw [hpr2, h3]; rfl
  · rw [hit2, h3]; rfl

theorem started_begin (he : 0 < W.eps) (hsort : IsArgsort W.argsort) (hV : Regular V J) (hm : 0 < m) {F : VWorld ℝ m} (hF : F.toMathFun = realFun) {k : ℕ} (hA : Able V J k)
    {ys : List (Fin m → ℝ)} (hy : ys ≠ []) {s : VM V m Atom × ℕ} (hp : ProperPrior (GM.prior (begun ys s.1).gm)) {nG : Option ℤ} {warm : Bool} {method : VarInit}
    (h : LegalStart F W J ys nG k s warm method) :
    (warm = true → Begin J ys k s.1 (begun ys s.1)) ∧ (warm = false → startGroups nG s.1 = some (k : ℤ) ∧
      wp ω (initVar F W (k : ℤ) method) (fun _ t => Begin J ys k s.1 t.1) (fun _ _ => False) (begun ys s.1, s.2)) := by
  cases h with
  | warm _ h => exact ⟨fun _ => ⟨⟨h.varK, h.pos, h.theta, h.atoms, h.inv, h.weights⟩, rfl, rfl, rfl⟩, fun h => by cases h⟩
  | random hk h0 hJ hd => exact ⟨fun h => (by cases h), fun _ => ⟨hk, initVar_random_total hV hm hA h0 hy hJ hd⟩⟩
  | kmeans hk h0 hJ raw hraw hc => exact ⟨fun h => (by cases h), fun _ => ⟨hk, initVar_kmeans_total he hsort hV hm hF hA h0 hy hJ hp hraw hc⟩⟩

/-- **The whole fit returns.** -/
theorem C123_fit (he : 0 < W.eps) (hsort : IsArgsort W.argsort) (hV : Regular V J) (hm : 0 < m) {F : VWorld ℝ m} (hF : F.toMathFun = realFun) {k : ℕ} (hA : Able V J k)
    {ys : List (Fin m → ℝ)} (hy : ys ≠ []) {s : VM V m Atom × ℕ} (hp : ProperPrior (GM.prior (begun ys s.1).gm)) {nG : Option ℤ} {warm : Bool} {method : VarInit} (tol : ℝ)
    (hT : 0 < s.1.gm.totalIter) (h : LegalStart F W J ys nG k s warm method) :
    ∃ u, fitVariational F W (.rows ys) nG warm (.fin tol) method ω s = (.ok (), u) ∧ Good J k u.1 ∧ u.1.gm.y = ys ∧ u.1.varFitted = true ∧
      GM.prior u.1.gm = GM.prior (begun ys s.1).gm := by
  obtain ⟨hw, hc⟩ := started_begin (ω := ω) he hsort hV hm hF hA hy hp h
  have := fitVariational_wp (ω := ω) (F := F) (W := W) (ys := ys) (nG := nG) (warm := warm) (tol := .fin tol) (method := method) (s := s) (E := fun _ _ => False)
    (Q := fun u => Good J k u.1 ∧ u.1.gm.y = ys ∧ u.1.varFitted = true ∧ GM.prior u.1.gm = GM.prior (begun ys s.1).gm) (fun t => Begin J ys k s.1 t.1) hw
    (fun hf k' hk' => by
      have := hc hf
      rw [hk'] at this
      cases Option.some.inj this.1
      exact this.2)
    (fun hf hn => by rw [(hc hf).1] at hn; cases hn)
    (fun t ht => ?_)
  · unfold wp at this
    revert this
    rcases fitVariational F W (.rows ys) nG warm (.fin tol) method ω s with ⟨e | a, t⟩
    · intro h; exact h.elim
    · intro h; exact ⟨t, rfl, h⟩
  · rw [hF]
    have hyt : t.1.gm.y ≠ [] := by rw [ht.y]; exact hy
    have hpt : ProperPrior (GM.prior t.1.gm) := by rw [ht.prior]; exact hp
    refine wp_mono (wp_and (C123_loop he hV hm hA (.fin tol) _ _ _ _ t (by omega) ht.ready hyt hpt) (varLoop_spec (.fin tol) _ _ _ _ t (by omega))) ?_ (fun _ _ h => h.1)
    rintro it u ⟨_, es, hit, h5, h6, _, h7, _, h8⟩
    have hne : es ≠ [] := by
      rintro rfl
      have := h8 (by rw [ht.iter]; simpa using hT)
      simp [changes, Fl.lt] at this
    have hgood : ∀ {s u : VM V m Atom × ℕ} {es : List (Fl ℝ)}, Iter realFun W ω s es u → Ready J k s.1 → s.1.gm.y ≠ [] → ProperPrior (GM.prior s.1.gm) →
        (es ≠ [] ∨ Good J k s.1 → Good J k u.1) ∧ GM.prior u.1.gm = GM.prior s.1.gm := by
      intro s u es hit
      induction hit with
      | nil s => exact fun _ _ _ => ⟨fun h => h.resolve_left (fun h => h rfl), rfl⟩
      | cons hmax hel rest ih =>
        intro hr hy hp
        obtain ⟨h1, h2, h3, _⟩ := wp_of_ok hmax (C123_step (ω := ω) he hV hm hA hr hy hp)
        obtain ⟨h4, h5⟩ := ih h1.ready (by rw [h2]; exact hy) (by rw [h3]; exact hp)
        exact ⟨fun _ => h4 (.inr h1), h5.trans h3⟩
    obtain ⟨g, hpr⟩ := hgood hit ht.ready hyt hpt
    have g := g (.inl hne)
    have r := g.ready
    exact ⟨⟨⟨r.varK, r.pos, r.theta, r.atoms, r.inv, r.weights⟩, g.probs, g.proper, g.number⟩, h7.trans ht.y, rfl, hpr.trans ht.prior⟩

/-- **The flag tells the truth** on an object that has not converged before: every value of the bound is a number; the flag is set iff the fit stopped before `total_iter` iterations, and then
because the last two values differ by at most `tol`. -/
theorem C123_flag (he : 0 < W.eps) (hsort : IsArgsort W.argsort) (hV : Regular V J) (hm : 0 < m) {F : VWorld ℝ m} (hF : F.toMathFun = realFun) {k : ℕ} (hA : Able V J k)
    {ys : List (Fin m → ℝ)} (hy : ys ≠ []) {s u : VM V m Atom × ℕ} (hp : ProperPrior (GM.prior (begun ys s.1).gm)) {nG : Option ℤ} {warm : Bool} {method : VarInit} {tol : ℝ}
    (hT : 0 < s.1.gm.totalIter) (hs : s.1.varConverged = false) (h : LegalStart F W J ys nG k s warm method)
    (hu : fitVariational F W (.rows ys) nG warm (.fin tol) method ω s = (.ok (), u)) :
    ∃ (t u' : VM V m Atom × ℕ) (xs : List ℝ), Started F W ω ys nG warm method s t ∧ Iter realFun W ω t (xs.map fin) u' ∧
      (u.1.varConverged = true → ∃ (ps : List ℝ) (x y : ℝ), xs = ps ++ [x, y] ∧ |x - y| ≤ tol ∧ (xs.length : ℤ) < s.1.gm.totalIter) ∧
      (u.1.varConverged = false → (xs.length : ℤ) = s.1.gm.totalIter) := by
  obtain ⟨hw, hc⟩ := started_begin (ω := ω) he hsort hV hm hF hA hy hp h
  obtain ⟨t, u', es, hst, hit, himp⟩ := C53_truthful_partial hu hs hT.le
  have ht : Begin J ys k s.1 t.1 := by
    rcases hst with ⟨h1, rfl⟩ | ⟨h1, k', hk', h2⟩
    · exact hw h1
    · have := hc h1
      rw [hk'] at this
      cases Option.some.inj this.1
      exact wp_of_ok h2 this.2
  rw [hF] at hit
  have hnum := hit.numbers he hV hm hA ht.ready (by rw [ht.y]; exact hy) (by rw [ht.prior]; exact hp)
  obtain ⟨xs, rfl⟩ : ∃ xs : List ℝ, es = xs.map fin := by
    clear himp hit
    induction es with
    | nil => exact ⟨[], rfl⟩
    | cons e es ih =>
      obtain ⟨x, rfl⟩ := hnum e (List.mem_cons_self ..)
      obtain ⟨xs, rfl⟩ := ih fun e he => hnum e (List.mem_cons_of_mem _ he)
      exact ⟨x :: xs, rfl⟩
  obtain ⟨h1, h2⟩ := himp hnum
  refine ⟨t, u', xs, hst, hit, ?_, ?_⟩
  · intro hcv
    obtain ⟨es', x, y, h3, h4, h5⟩ := h1 hcv
    rw [List.length_map] at h5
    obtain ⟨ps, qs, rfl, h6, h7⟩ := List.map_eq_append_iff.1 h3
    have h8 : qs.map fin = [x, y].map fin := h7
    have h9 : qs = [x, y] := List.map_injective_iff.2 (fun a b h => by cases h; rfl) h8
    subst h9
    exact ⟨ps, x, y, rfl, h4, h5⟩
  · intro hcv
    have := h2 hcv
    rwa [List.length_map] at this

/-! ### The weight classes -/

theorem pdLoop_ok {f : ℕ → Except PyErr (Option ℝ)} : ∀ (ns : List ℝ) (j : ℕ) (r : ℝ), (∀ i < ns.length, ∃ x : ℝ, f (j + i) = .ok (some x)) →
    ∃ x : ℝ, meanLogPdLoop f j (some r) ns = .ok (some x)
  | [], _, r, _ => ⟨r, rfl⟩
  | n :: ns, j, r, h => by
    obtain ⟨x, hx⟩ := h 0 (by simp)
    rw [Nat.add_zero] at hx
    unfold meanLogPdLoop
    simp only [hx]
    refine pdLoop_ok ns (j + 1) _ fun i hi => ?_
    obtain ⟨y, hy⟩ := h (i + 1) (by simpa using hi)
    exact ⟨y, by rw [← hy]; congr 1; omega⟩

theorem able_DP (F : MathFun ℝ) (k : ℕ) : Able (varDP F) (fun _ => True) k where
  fit c q _ _ := by
    simp only [varDP, matrix_fin]
    exact ⟨_, rfl⟩
  terms c q c' v _ _ _ hf := by
    simp only [varDP, matrix_fin] at hf
    cases hf
    constructor
    · obtain ⟨x, hx⟩ := pdLoop_ok (f := DP.meanLogWj F.toVarFun (some (DP.fitVariational (show DP ℝ from c).alpha q))) (rowSums q) 0 0
        (fun i hi => by rw [Nat.zero_add]; exact DP_number _ q (by simpa [rowSums] using hi))
      refine ⟨x, ?_⟩
      simp only [varDP, matrix_fin]
      exact congrArg (Except.map flOfOption) hx
    · exact ⟨_, rfl⟩

theorem able_PY (F : MathFun ℝ) (k : ℕ) : Able (varPY F) (fun _ => True) k where
  fit c q _ _ := by
    simp only [varPY, matrix_fin]
    exact ⟨_, rfl⟩
  terms c q c' v _ _ _ hf := by
    simp only [varPY, matrix_fin] at hf
    cases hf
    constructor
    · obtain ⟨x, hx⟩ := pdLoop_ok (f := PY.meanLogWj F.toVarFun (some (PY.fitVariational (show PY ℝ from c).pyd (show PY ℝ from c).alpha q))) (rowSums q) 0 0
        (fun i hi => by rw [Nat.zero_add]; exact PY_number _ _ q (by simpa [rowSums] using hi))
      refine ⟨x, ?_⟩
      simp only [varPY, matrix_fin]
      exact congrArg (Except.map flOfOption) hx
    · exact ⟨_, rfl⟩

theorem able_Geo (F : MathFun ℝ) {k : ℕ} (hk : 0 < k) : Able (varGeo F) (fun _ => True) k where
  fit c q _ hl := by
    simp only [varGeo, matrix_fin]
    cases q with
    | nil => simp at hl; omega
    | cons r q => exact ⟨_, rfl⟩
  terms c q c' v _ hl _ hf := by
    simp only [varGeo, matrix_fin] at hf
    cases q with
    | nil => simp at hl; omega
    | cons r q =>
      cases hf
      refine ⟨?_, _, rfl⟩
      simp only [varGeo, matrix_fin]
      exact ⟨_, rfl⟩

/-- The Dirichlet distribution with as many weights, and entries of `alpha`, as groups. -/
theorem able_DirDist (F : MathFun ℝ) {k : ℕ} :
    Able (varDirDist F) (fun c => (show DirDist ℝ from c).n = k ∧ (show DirDist ℝ from c).alpha.length = k) k where
  fit c q hc hl := by
    simp only [varDirDist, matrix_fin]
    unfold DirDist.fitVariational DirDist.broadcastAdd
    rw [hc.1, hl, if_neg (by simp), if_pos (by rw [hc.2, rowSums, List.length_map, hl])]
    exact ⟨_, rfl⟩
  terms c q c' v hc hl _ hf := by
    simp only [varDirDist, matrix_fin] at hf
    unfold DirDist.fitVariational DirDist.broadcastAdd at hf
    rw [hc.1, hl, if_neg (by simp), if_pos (by rw [hc.2, rowSums, List.length_map, hl])] at hf
    cases hf
    have hlen : (List.zipWith (· + ·) (show DirDist ℝ from c).alpha (rowSums q)).length = k := by
      rw [List.length_zipWith, hc.2, rowSums, List.length_map, hl, min_self]
    constructor
    · obtain ⟨x, hx⟩ := pdLoop_ok (f := DirDist.meanLogWj F.toVarFun (some { d := q, k := k, params := List.zipWith (· + ·) (show DirDist ℝ from c).alpha (rowSums q) })) (rowSums q) 0 0
        (fun i hi => by
          unfold DirDist.meanLogWj
          simp only []
          rw [Nat.zero_add, List.getElem?_eq_getElem (by rw [hlen]; simpa [rowSums, hl] using hi)]
          exact ⟨_, rfl⟩)
      refine ⟨x, ?_⟩
      simp only [varDirDist, matrix_fin]
      exact congrArg (Except.map flOfOption) hx
    · show ∃ x, flOk (DirDist.meanLogPw F.toVarFun _ (some _)) = _
      unfold DirDist.meanLogPw
      simp only []
      rw [hlen, if_neg (by simp)]
      exact ⟨_, rfl⟩

theorem able_Equal (F : MathFun ℝ) (k : ℕ) : Able (varEqual F) (fun _ => True) k where
  fit _ _ _ _ := ⟨_, rfl⟩
  terms _ _ _ _ _ _ _ _ := ⟨⟨_, rfl⟩, _, rfl⟩

theorem able_Freq (F : MathFun ℝ) (k : ℕ) : Able (varFreq F) (fun c => 1 ≤ (show Freq ℝ from c).n) k where
  fit _ _ _ _ := ⟨_, rfl⟩
  terms c q c' v _ _ _ hf := by
    cases hf
    refine ⟨?_, _, rfl⟩
    simp only [varFreq, matrix_fin]
    exact ⟨_, rfl⟩

/-- The settings of the Dirichlet distribution are kept. -/
theorem regular_DirDist_n (F : MathFun ℝ) {k : ℕ} (hk : 0 < k) :
    Regular (varDirDist F) (fun c => (show DirDist ℝ from c).n = k ∧ (show DirDist ℝ from c).alpha.length = k) := by
  intro c q c' v hc hq hf
  have h := regular_DirDist c q c' v (by
    intro h0
    rw [h0, List.length_nil] at hc
    omega) hq hf
  refine ⟨?_, h.2⟩
  simp only [varDirDist, matrix_fin] at hf
  cases hg : DirDist.fitVariational (show DirDist ℝ from c).n (show DirDist ℝ from c).alpha q with
  | error e => rw [hg] at hf; cases hf
  | ok g =>
    rw [hg] at hf
    cases hf
    exact hc

theorem Able.restrict {I : C.State → Prop} {k : ℕ} (h : Able V I k) (hJ : ∀ c, J c → I c) : Able V J k :=
  ⟨fun c q hc hl => h.fit c q (hJ c hc) hl, fun c q c' v hc hl hp hf => h.terms c q c' v (hJ c hc) hl hp hf⟩

theorem Regular.restrict {I : C.State → Prop} (h : Regular V I) (hJ : ∀ c, J c → I c) (hk : ∀ c q c' v, J c → V.fit c q = .ok (c', v) → J c') : Regular V J :=
  fun c q c' v hc hq hf => ⟨hk c _ c' v hc hf, (h c q c' v (hJ c hc) hq hf).2⟩

/-- Parameters for which the formulas of the classes only evaluate `digamma`, `loggamma` and `log` at positive numbers (`C88`, `C89`). -/
def LegalDP (c : (DP.cls : WeightClass ℝ).State) : Prop := 0 < (show DP ℝ from c).alpha
/-- See `LegalDP`. -/
def LegalPY (c : (PY.cls : WeightClass ℝ).State) : Prop := 0 ≤ (show PY ℝ from c).pyd ∧ (show PY ℝ from c).pyd < 1 ∧ -(show PY ℝ from c).pyd < (show PY ℝ from c).alpha
/-- See `LegalDP`. -/
def LegalGeo (c : Geo.cls.State) : Prop := 0 < (show Geo ℝ from c).a ∧ 0 < (show Geo ℝ from c).b
/-- See `LegalDP`; the number of weights is the number of groups. -/
def LegalDirDist (k : ℕ) (c : (DirDist.cls : WeightClass ℝ).State) : Prop :=
  ((show DirDist ℝ from c).n = k ∧ (show DirDist ℝ from c).alpha.length = k) ∧ ∀ x ∈ (show DirDist ℝ from c).alpha, 0 < x

/-- **All weight classes** with a variational interface meet the conditions: the Dirichlet distribution if the number of groups is the number of its weights, the others for every number of groups. -/
theorem C123_classes (F : MathFun ℝ) {k : ℕ} (hk : 0 < k) :
    (Regular (varDP F) LegalDP ∧ Able (varDP F) LegalDP k) ∧ (Regular (varPY F) LegalPY ∧ Able (varPY F) LegalPY k) ∧
    (Regular (varGeo F) LegalGeo ∧ Able (varGeo F) LegalGeo k) ∧
    (Regular (varDirDist F) (LegalDirDist k) ∧ Able (varDirDist F) (LegalDirDist k) k) ∧
    (Regular (varEqual F) (fun _ => True) ∧ Able (varEqual F) (fun _ => True) k) ∧
    (Regular (varFreq F) (fun c => 1 ≤ (show Freq ℝ from c).n) ∧ Able (varFreq F) (fun c => 1 ≤ (show Freq ℝ from c).n) k) := by
  refine ⟨⟨regular_DP.restrict (fun _ _ => trivial) ?_, (able_DP F k).restrict fun _ _ => trivial⟩, ⟨regular_PY.restrict (fun _ _ => trivial) ?_, (able_PY F k).restrict fun _ _ => trivial⟩,
    ⟨regular_Geo.restrict (fun _ _ => trivial) ?_, (able_Geo F hk).restrict fun _ _ => trivial⟩,
    ⟨(regular_DirDist_n F hk).restrict (fun _ h => h.1) ?_, (able_DirDist F).restrict fun _ h => h.1⟩, ⟨regular_Equal, able_Equal F k⟩, ⟨regular_Freq, able_Freq F k⟩⟩
  · intro c q c' v hc hf
    simp only [varDP] at hf
    cases hq : Fl.matrix q <;> rw [hq] at hf <;> cases hf <;> exact hc
  · intro c q c' v hc hf
    simp only [varPY] at hf
    cases hq : Fl.matrix q <;> rw [hq] at hf <;> cases hf <;> exact hc
  · intro c q c' v hc hf
    simp only [varGeo] at hf
    cases hq : Fl.matrix q with
    | none => rw [hq] at hf; cases hf; exact hc
    | some q' =>
      rw [hq] at hf
      cases q' <;> cases hf
      exact hc
  · intro c q c' v hc hf
    simp only [varDirDist] at hf
    cases hq : Fl.matrix q with
    | none =>
      rw [hq] at hf
      by_cases h : (q.length : ℤ) ≠ (show DirDist ℝ from c).n
      · simp only [if_pos h] at hf; cases hf
      · simp only [if_neg h] at hf; cases hf; exact hc
    | some q' =>
      rw [hq] at hf
      cases hg : DirDist.fitVariational (show DirDist ℝ from c).n (show DirDist ℝ from c).alpha q' with
      | error e => simp only [hg] at hf; cases hf
      | ok g => simp only [hg] at hf; cases hf; exact hc

/-! ### Where it fails -/

theorem dirDist_fit_wrong {G : MathFun ℝ} {c : (DirDist.cls : WeightClass ℝ).State} {q : List (List (Fl ℝ))} (h : (q.length : ℤ) ≠ (show DirDist ℝ from c).n) :
    (varDirDist G).fit c q = .error .assertionError := by
  simp only [varDirDist]
  cases hm : Fl.matrix q with
  | none => exact if_pos h
  | some q' =>
    have hl : q.length = q'.length := by rw [Fl.matrix_some hm, List.length_map]
    rw [hl] at h
    have : DirDist.fitVariational (show DirDist ℝ from c).n (show DirDist ℝ from c).alpha q' = .error .assertionError := if_pos h
    exact congrArg (Except.map fun v => (c, VFit.fitted v)) this

/-- **The number of groups is not the number of weights**: with the Dirichlet distribution every random start raises `AssertionError`. -/
theorem C123_groups_refuted {F : VWorld ℝ m} {G : MathFun ℝ} {k : ℕ} (h0 : 0 < k) {ys : List (Fin m → ℝ)} {s : VM (varDirDist G) m Atom × ℕ} {nG : Option ℤ} {tol : Fl ℝ}
    (hk : startGroups nG s.1 = some (k : ℤ)) (hn : (show DirDist ℝ from s.1.gm.wst.1).n ≠ k)
    (hd : ∀ p, (Matrix.of (F.niw p (GM.prior (begun ys s.1).gm)).2).det ≠ 0) :
    ∃ u, fitVariational F W (.rows ys) nG false tol .random ω s = (.error .assertionError, u) := by
  have := fitVariational_wp (ω := ω) (F := F) (W := W) (ys := ys) (nG := nG) (warm := false) (tol := tol) (method := .random) (s := s) (E := fun e _ => e = .assertionError)
    (Q := fun _ => False) (fun _ => False) (fun h => by cases h)
    (fun _ k' hk' => by
      rw [hk] at hk'
      cases hk'
      unfold initVar
      rw [wp_bind, wp_assign, wp_bind]
      refine wp_mono (wp_and (drawAtoms_total F _ _ hd) (show wp ω (drawAtoms F ((k : ℤ).toNat)) (fun _ t => t.1.varK = some (k : ℤ)) (fun _ _ => True) _ from ?_)) ?_ (fun _ _ h => h.1.elim)
      · have hK : KeepsR ω (fun t : VM (varDirDist G) m Atom => t.varK = some (k : ℤ)) (drawAtoms F ((k : ℤ).toNat)) (fun _ => True) := by
          generalize (k : ℤ).toNat = n
          induction n with
          | zero => exact KeepsR.pure trivial
          | succ n ih =>
            unfold drawAtoms
            exact KeepsR.bind KeepsR.self (fun _ _ => KeepsR.bind (R := fun _ => True) (fun t ht => ⟨ht, trivial⟩) (fun _ _ => KeepsR.bind (KeepsR.lift _) (fun _ _ =>
              KeepsR.bind (KeepsR.assign (fun _ h => h)) (fun _ _ => ih))))
        exact wp_mono (hK.wp rfl) (fun _ _ h => h.1) (fun _ _ _ => trivial)
      rintro _ t ⟨ht, hvk⟩
      have hk0 : (k : ℤ) ≠ 0 := by exact_mod_cast h0.ne'
      rw [if_neg hk0, if_neg (by omega), wp_bind, wp_assign]
      unfold updateVarW fitWeights
      simp only [wp_bind, wp_self, wp_lift, wp_assign]
      have hrows : ∀ D, (varRows ({ t.1 with varD := D } : VM (varDirDist G) m Atom)).length = k := by
        intro D
        simp [varRows, hvk]
      have hfit : ∀ q : List (List (Fl ℝ)), q.length = k → (varDirDist G).fit t.1.gm.wst.1 q = .error .assertionError := by
        intro q hq
        rw [ht]
        exact dirDist_fit_wrong (by rw [hq]; exact hn.symm)
      rw [hfit _ (hrows _)]
      exact ⟨fun r h => (by cases h), fun e h => by cases h; rfl⟩)
    (fun _ h => by rw [hk] at h; cases h) (fun t h => h.elim)
  unfold wp at this
  revert this
  rcases fitVariational F W (.rows ys) nG false tol .random ω s with ⟨e | a, t⟩
  · intro h
    cases (show e = .assertionError from h)
    exact ⟨t, rfl⟩
  · intro h; exact h.elim

theorem varPsi_equal {x : Fin m → ℝ} {n : ℕ} {p : NIW ℝ m} (hmu : p.mu = x) (hpsi : p.psi = 0) {r : List ℝ} (hl : r.length = n) (hs : r.sum ≠ 0) :
    varPsi (List.replicate n x) p r = 0 := by
  have hm : ∀ i, wMean (List.replicate n x) r i = x i := by
    intro i
    rw [wMean_eq]
    have : wSum r (List.replicate n x) (fun y => y i) = r.sum * x i := by
      have h : wSum r (List.replicate n x) (fun y => y i) = wSum r (List.replicate n x) (fun _ => x i) := by
        unfold wSum
        clear hs
        subst hl
        induction r with
        | nil => rfl
        | cons v r ih => simp only [List.length_cons, List.replicate_succ, List.zipWith_cons_cons, List.sum_cons, ih]
      rw [h, wSum_const _ (by simp [hl])]
    rw [this, mul_div_cancel_left₀ _ hs]
  have hc : ∀ i j, wCov (List.replicate n x) r i j = 0 := by
    intro i j
    unfold wCov
    have : (List.zipWith (fun v (y : Fin m → ℝ) => v * (y i - wMean (List.replicate n x) r i) * (y j - wMean (List.replicate n x) r j)) r (List.replicate n x)).sum = 0 := by
      rw [hm, hm]
      clear hs hm
      subst hl
      induction r with
      | nil => rfl
      | cons v r ih => simp only [List.length_cons, List.replicate_succ, List.zipWith_cons_cons, List.sum_cons, ih]; ring
    rw [this, zero_div]
  funext i j
  unfold varPsi
  rw [hc, hpsi, hmu]
  simp [hm]

theorem varAtoms_equal (hm : 0 < m) {x : Fin m → ℝ} {n : ℕ} {p : NIW ℝ m} (hmu : p.mu = x) (hpsi : p.psi = 0) : ∀ {q : List (List ℝ)}, (∀ r ∈ q, r.length = n) → (∃ r ∈ q, r.sum ≠ 0) →
    varAtoms (List.replicate n x) p (q.map (fun r => r.map fin)) = .error .linAlgError
  | [], _, h => by obtain ⟨r, hr, _⟩ := h; cases hr
  | r :: q, hl, h => by
    rw [List.map_cons, varAtoms]
    by_cases hs : r.sum = 0
    · have h2 : ∃ r ∈ q, r.sum ≠ 0 := by
        obtain ⟨r', hr', h'⟩ := h
        rcases List.mem_cons.1 hr' with rfl | hr'
        · exact absurd hs h'
        · exact ⟨r', hr', h'⟩
      have : varAtom (List.replicate n x) p (r.map fin) = .ok none := by
        unfold varAtom
        rw [Fl.numbers_fin]
        simp only [if_pos hs]
      rw [this, varAtoms_equal hm hmu hpsi (fun r hr => hl r (List.mem_cons_of_mem _ hr)) h2]
    · have : varAtom (List.replicate n x) p (r.map fin) = .error .linAlgError := by
        unfold varAtom
        rw [Fl.numbers_fin]
        simp only [if_neg hs]
        rw [varPsi_equal hmu hpsi (hl r (List.mem_cons_self ..)) hs]
        unfold matInv
        have : Nonempty (Fin m) := ⟨⟨0, hm⟩⟩
        have hz : (Matrix.of (0 : Fin m → Fin m → ℝ)).det = 0 := Matrix.det_zero (n := Fin m)
        rw [if_pos hz]
      rw [this]

/-- **Equal observations**: with the default prior and the default start every fit raises `LinAlgError`, for every weight class and number of groups. -/
theorem C123_equal_refuted (hsort : IsArgsort W.argsort) (hm : 0 < m) {F : VWorld ℝ m} {k : ℕ} (hA : Able V J k) {n : ℕ} (hn : 2 ≤ n) {x : Fin m → ℝ} {s : VM V m Atom × ℕ} (hJ : J s.1.gm.wst.1)
    (hmu : s.1.gm.muPrior = none) (hpsi : s.1.gm.psiPrior = none) {nG : Option ℤ} {tol : Fl ℝ} (hk : startGroups nG s.1 = some (k : ℤ)) {raw : List ℕ}
    (hraw : W.kmeans s.2 (List.replicate n x) k = .ok raw) (hlen : raw.length = n) (hc : raw.toFinset.card ≤ k) :
    ∃ u, fitVariational F W (.rows (List.replicate n x)) nG false tol .kmeans ω s = (.error .linAlgError, u) := by
  set ys := List.replicate n x with hys
  have hcov := sizeBiased_covers hsort (d := raw) rfl
  have hn0 : (n : ℝ) ≠ 0 := by exact_mod_cast (by omega : n ≠ 0)
  have hmean : meanVec ys = x := by
    funext i
    unfold meanVec
    rw [hys, List.map_replicate, List.sum_replicate, List.length_replicate, nsmul_eq_mul, mul_div_cancel_left₀ _ hn0]
  have hp1 : (GM.prior (begun ys s.1).gm).mu = x := by
    show (some (s.1.gm.muPrior.getD (meanVec ys))).getD (fun _ => 0) = x
    rw [hmu]; exact hmean
  have hp2 : (GM.prior (begun ys s.1).gm).psi = 0 := by
    show (some (s.1.gm.psiPrior.getD (GM.cov ys))).getD (fun _ _ => 0) = 0
    rw [hpsi]
    show GM.cov ys = 0
    funext i j
    unfold GM.cov
    rw [hmean, hys, List.map_replicate, List.sum_replicate]
    simp
  have := fitVariational_wp (ω := ω) (F := F) (W := W) (ys := ys) (nG := nG) (warm := false) (tol := tol) (method := .kmeans) (s := s) (E := fun e _ => e = .linAlgError)
    (Q := fun _ => False) (fun _ => False) (fun h => by cases h)
    (fun _ k' hk' => by
      rw [hk] at hk'
      cases hk'
      unfold initVar
      rw [wp_bind, wp_assign, wp_bind, wp_self, wp_bind, wp_draw, wp_bind, wp_lift]
      refine ⟨?_, fun e h => by rw [show W.kmeans s.2 (begun ys s.1).gm.y k = .ok raw from hraw] at h; cases h⟩
      intro raw' h
      rw [show W.kmeans s.2 (begun ys s.1).gm.y k = .ok raw from hraw] at h
      cases h
      rw [if_neg (by omega), if_neg (by
        rintro ⟨y, hy, hk⟩
        have := (hcov y).1 hy
        simp at hk
        omega), wp_bind, wp_assign, wp_bind]
      unfold fitWeights
      rw [wp_bind, wp_self, wp_bind, wp_lift]
      obtain ⟨r, hr⟩ := hA.fit s.1.gm.wst.1 (List.replicate k []) hJ (by simp)
      have hr2 : V.fit s.1.gm.wst.1 (List.replicate k []) = .ok r := by rw [← hr, List.map_replicate]; rfl
      refine ⟨?_, fun e h => by
        simp only [Int.toNat_natCast] at h
        rw [show V.fit (begun ys s.1).gm.wst.1 (List.replicate k []) = .ok r from hr2] at h; cases h⟩
      intro r' h
      simp only [Int.toNat_natCast] at h
      rw [show V.fit (begun ys s.1).gm.wst.1 (List.replicate k []) = .ok r from hr2] at h
      cases h
      rw [wp_assign, wp_bind]
      unfold updateVarTheta
      rw [wp_bind, wp_self, wp_bind, wp_lift]
      have hrows : ∀ s' : VM V m Atom, s'.varK = some (k : ℤ) → s'.varD = (sizeBiased W.argsort raw).map (oneHot k) →
          varRows s' = ((List.range k).map (fun j => (sizeBiased W.argsort raw).map (fun x => if j = x then (1 : ℝ) else 0))).map (fun r => r.map fin) := by
        intro s' h1 h2
        unfold varRows
        rw [h1, h2, List.map_map]
        apply List.map_congr_left
        intro j hj
        exact onehot_row (List.mem_range.1 hj)
      simp only [Int.toNat_natCast]
      rw [hrows _ rfl rfl]
      have hne : 0 < raw.toFinset.card := by
        rw [Finset.card_pos]
        obtain ⟨a, as, rfl⟩ := List.exists_cons_of_length_pos (l := raw) (by omega)
        exact ⟨a, by simp⟩
      have herr := varAtoms_equal hm hp1 hp2 (n := n) (q := (List.range k).map (fun j => (sizeBiased W.argsort raw).map (fun x => if j = x then (1 : ℝ) else 0)))
        (fun r hr => by
          obtain ⟨j, _, rfl⟩ := List.mem_map.1 hr
          rw [List.length_map]
          simpa [sizeBiased, npInverse] using hlen)
        ⟨_, List.mem_map.2 ⟨0, List.mem_range.2 (by omega), rfl⟩, (onehot_pos _ ((hcov 0).2 hne)).ne'⟩
      exact ⟨fun as h => (by have h' := herr.symm.trans h; cases h'), fun e h => by have h' := herr.symm.trans h; cases h'; rfl⟩)
    (fun _ h => by rw [hk] at h; cases h) (fun t h => h.elim)
  unfold wp at this
  revert this
  rcases fitVariational F W (.rows ys) nG false tol .kmeans ω s with ⟨e | a, t⟩
  · intro h
    cases (show e = .linAlgError from h)
    exact ⟨t, rfl⟩
  · intro h; exact h.elim

/-! ### The hypotheses can be met -/

/-- Functions for the examples: k-means puts the observations into two groups in turn. -/
noncomputable def turnWorld : World ℝ 1 Unit where
  unif := fun _ a _ => a
  atom := fun _ _ => ()
  gumbel := fun _ => 0
  kmeans := fun _ ys _ => .ok (ys.mapIdx (fun i _ => i % 2))
  argsort := world.argsort
  varLabels := fun _ _ _ => .error .valueError
  logpdf := fun _ _ => ⊥
  pdf := fun _ _ _ => 0
  log := Real.log
  eps := 1 / 4503599627370496
  fuel := 0

noncomputable def turnFun : VWorld ℝ 1 := { realFun with
  niw := fun p q => (q.mu, fun _ _ => (p : ℝ) + 1)
  tol := 1 / 100000000 }

/-- Four observations, two groups, a Dirichlet process mixture with `psi_prior` given: the fit returns, whichever start is used. -/
example {s : VM (varDP realFun) 1 Unit × ℕ} (h1 : s.1.gm.lam = 1) (h2 : s.1.gm.psiPrior = some 1) (h3 : s.1.gm.nuPrior = none) (h4 : (show DP ℝ from s.1.gm.wst.1).alpha = 2)
    (h5 : s.1.gm.totalIter = 100) (tol : ℝ) :
    (∃ u, fitVariational turnFun turnWorld (.rows [![0], ![1], ![5], ![7]]) (some 2) false (.fin tol) .kmeans ω s = (.ok (), u)) ∧
    ∃ u, fitVariational turnFun turnWorld (.rows [![0], ![1], ![5], ![7]]) (some 2) false (.fin tol) .random ω s = (.ok (), u) := by
  have hp : ProperPrior (GM.prior (begun [![0], ![1], ![5], ![7]] s.1).gm) := by
    refine ⟨?_, ?_, ?_⟩
    · show 0 < s.1.gm.lam
      rw [h1]; exact one_pos
    · show ((1 : ℕ) : ℝ) - 1 < s.1.gm.nuPrior.getD _
      rw [h3]; norm_num
    · show (Matrix.of (s.1.gm.psiPrior.getD _)).PosDef
      rw [h2]
      have : (Matrix.of (fun _ _ : Fin 1 => (1 : ℝ)) : Matrix (Fin 1) (Fin 1) ℝ) = 1 := by
        ext i j
        fin_cases i; fin_cases j; rfl
      show (Matrix.of (fun _ _ : Fin 1 => (1 : ℝ)) : Matrix (Fin 1) (Fin 1) ℝ).PosDef
      rw [this]
      exact Matrix.PosDef.one
  have he : 0 < turnWorld.eps := by show (0 : ℝ) < 1 / 4503599627370496; norm_num
  have hJ : LegalDP s.1.gm.wst.1 := by show 0 < (show DP ℝ from s.1.gm.wst.1).alpha; rw [h4]; exact two_pos
  have hA := (C123_classes realFun (k := 2) two_pos).1
  have key : ∀ method, LegalStart turnFun turnWorld LegalDP [![0], ![1], ![5], ![7]] (some 2) 2 s false method →
      ∃ u, fitVariational turnFun turnWorld (.rows [![0], ![1], ![5], ![7]]) (some 2) false (.fin tol) method ω s = (.ok (), u) := by
    intro method h
    obtain ⟨u, hu, _⟩ := C123_fit (ω := ω) he world_argsort hA.1 one_pos rfl hA.2 (by simp) hp tol (by rw [h5]; norm_num) h
    exact ⟨u, hu⟩
  refine ⟨key _ (.kmeans rfl two_pos hJ [0, 1, 0, 1] rfl (by decide)), key _ (.random rfl two_pos hJ fun p => ?_)⟩
  show (Matrix.of (fun _ _ : Fin 1 => (p : ℝ) + 1)).det ≠ 0
  rw [Matrix.det_fin_one]
  show (p : ℝ) + 1 ≠ 0
  positivity

example : LegalDirDist 3 ((⟨3, [1, 2, 3], [], []⟩ : DirDist ℝ)) := ⟨⟨rfl, rfl⟩, by simp⟩
example : turnWorld.kmeans 0 (List.replicate 3 ![1]) 2 = .ok [0, 1, 0] ∧ ([0, 1, 0] : List ℕ).toFinset.card ≤ 2 := ⟨rfl, by decide⟩
end Verif.Mix.VM
