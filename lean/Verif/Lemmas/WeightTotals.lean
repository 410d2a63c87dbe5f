import Verif.Lemmas.StoredStates
import Verif.Lemmas.Counts

/-!
# Totals of the weight vectors

Which totals the weights of an object can have, kept by every call a mixture makes on it.
-/

set_option linter.unusedSectionVars false

namespace Verif
open Spec
variable {K : Type} [Field K] [LinearOrder K] [IsStrictOrderedRing K] {ω : Oracle K}

/-- Empty (nothing drawn yet) or of total one. -/
def UnitTotal (w : List K) : Prop := w ≠ [] → w.sum = 1

theorem UnitTotal.nil : UnitTotal ([] : List K) := fun h => absurd rfl h

namespace KeepsR
variable {σ : Type} {I : σ → Prop}

theorem dirichlet_total (hω : ω.Legal) (l : List K) : KeepsR ω I (M.dirichlet l : M K σ (List K)) UnitTotal := by
  intro s hs
  unfold M.dirichlet
  split
  · rename_i h
    split at h
    · cases h
    · cases h
      refine ⟨hs, fun hne => hω.dirichlet_sum _ _ fun hl => hne ?_⟩
      subst hl
      exact List.length_eq_zero_iff.1 (hω.dirichlet_length _ _)
  · rename_i h; split at h <;> cases h; exact hs
end KeepsR

theorem uniformWeights_total {n : ℤ} {w : List K} (h : uniformWeights n = .ok w) : UnitTotal w := by
  intro _
  unfold uniformWeights at h
  split at h
  · cases h
  · unfold Py.repeatScalar at h
    split at h
    · cases h
    · rename_i h0 h1
      cases h
      have hpos : (0 : K) < (n : K) := by exact_mod_cast (by omega : (0 : ℤ) < n)
      rw [List.sum_replicate, nsmul_eq_mul]
      have : ((n.toNat : ℕ) : K) = (n : K) := by
        have : ((n.toNat : ℕ) : ℤ) = n := by omega
        exact_mod_cast this
      rw [this, mul_one_div_cancel hpos.ne']

namespace DirDist
/-- The weights of the object are empty or of total one. -/
def Total (s : DirDist K) : Prop := UnitTotal s.w

theorem draw_total (hω : ω.Legal) : KeepsR ω Total (draw : M K (DirDist K) _) (fun _ => True) := by
  unfold draw
  refine KeepsR.bind KeepsR.self fun s _ => KeepsR.ite (fun _ => ?_) fun _ => ?_
  · refine KeepsR.bind (KeepsR.lift _) fun _ _ => KeepsR.ite (fun _ => KeepsR.raise _) fun _ => KeepsR.bind (KeepsR.lift _) fun _ _ => ?_
    exact KeepsR.bind (KeepsR.dirichlet_total hω _) fun w hw => KeepsR.assign fun s _ => hw
  · exact KeepsR.bind (KeepsR.dirichlet_total hω _) fun w hw => KeepsR.assign fun s _ => hw

theorem random_total (hω : ω.Legal) (n : PySize) : KeepsR ω Total (random n : M K (DirDist K) _) (fun _ => True) := by
  unfold random
  refine KeepsR.bind (draw_total hω) fun _ _ => ?_
  repeat' keeps_step

theorem total_calls (hω : ω.Legal) : Mix.CallsKeep (cls : WeightClass K) ω Total := by
  have h : (core : WeightCore K).Stable ω Total :=
    { setD := fun _ _ h => h
      random := fun n => (random_total hω n).keeps
      complete := fun n => by
        refine (KeepsR.bind (R := fun _ => True) (R' := fun _ => True) ?_ fun _ _ => KeepsR.pure trivial).keeps
        unfold complete
        keeps_step; keeps_step; keeps_step
        · exact KeepsR.bind (random_total hω _) fun _ _ => KeepsR.pure trivial
        · repeat' keeps_step }
  exact ⟨h, fun f x => tail_keeps h x f⟩
end DirDist

namespace Equal
/-- The weights of the object are empty or of total one. -/
def Total (s : Equal K) : Prop := UnitTotal s.w

theorem random_total (n : PySize) : KeepsR ω Total (random n : M K (Equal K) _) (fun _ => True) := by
  unfold random
  repeat' keeps_step
  rename_i h; exact fun s hs => uniformWeights_total h

theorem total_calls : Mix.CallsKeep (cls : WeightClass K) ω Total := by
  have h : (core : WeightCore K).Stable ω Total :=
    { setD := fun _ _ h => h
      random := fun n => (random_total n).keeps
      complete := fun n => (KeepsR.bind (R' := fun _ => True) (random_total n) fun _ _ => KeepsR.pure trivial).keeps }
  exact ⟨h, fun f x => tail_keeps h x f⟩
end Equal

theorem IsBincount.sum_ne {d : List ℤ} {a : List ℕ} (h : IsBincount d a) (hd : ¬ d.length = 0) : a.sum ≠ 0 := by
  have ha : a ≠ [] := by
    rintro rfl
    obtain ⟨x, hx⟩ := List.exists_mem_of_length_pos (Nat.pos_of_ne_zero hd)
    have h1 := h.bound x hx
    have h2 := h.nonneg x hx
    simp at h1
    omega
  have hl := h.last ha
  have hpos := List.length_pos_iff.2 ha
  have hg := h.getElem? (a.length - 1)
  rw [if_pos (by omega)] at hg
  have hmem := List.mem_of_getElem? hg
  intro h0
  have hz := (List.sum_eq_zero_iff).1 h0 _ hmem
  unfold nEq at hz
  have := List.countP_eq_zero.1 hz _ hl
  simp at this
  omega

namespace Freq
/-- The weights of the object are empty or of total one. -/
def Total (s : Freq K) : Prop := UnitTotal s.w

theorem random_total (n : PySize) : KeepsR ω Total (random n : M K (Freq K) _) (fun _ => True) := by
  unfold random draw
  refine KeepsR.bind (R := fun _ => True) (KeepsR.bind KeepsR.self fun s _ => KeepsR.ite (fun _ => ?_) fun hd => ?_) fun _ _ => ?_
  · repeat' keeps_step
    rename_i h; exact fun s hs => uniformWeights_total h
  · refine KeepsR.bind (KeepsR.lift _) fun a ha => KeepsR.assign fun t _ => ?_
    intro _
    show (frequencies a : List K).sum = 1
    unfold frequencies
    rw [sum_map_div]
    exact div_self (by exact_mod_cast (IsBincount.of_ok ha).sum_ne hd)
  · repeat' keeps_step

theorem total_calls : Mix.CallsKeep (cls : WeightClass K) ω Total := by
  have h : (core : WeightCore K).Stable ω Total :=
    { setD := fun _ _ h => h
      random := fun n => (random_total n).keeps
      complete := fun n => (KeepsR.bind (R' := fun _ => True) (random_total n) fun _ _ => KeepsR.pure trivial).keeps }
  exact ⟨h, fun f x => tail_keeps h x f⟩
end Freq

/-! ## Strictly less than one -/

/-- Sticks that leave something over. -/
def Open01 (v : List K) : Prop := ∀ x ∈ v, 0 ≤ x ∧ x < 1

theorem Open01.total {v : List K} (h : Open01 v) : (stickWeights v).sum < 1 := by
  rw [stickWeights_sum]
  have : 0 < leftOver v := by
    unfold leftOver
    refine List.prod_pos fun x hx => ?_
    obtain ⟨y, hy, rfl⟩ := List.mem_map.1 hx
    linarith [(h y hy).2]
  linarith

/-- No beta draw is one. -/
def Oracle.OpenBeta (ω : Oracle K) : Prop := ∀ i a b, ω.beta i a b < 1

namespace KeepsR
variable {σ : Type} {I : σ → Prop}

theorem betaValues_open (hω : ω.Legal) (ho : ω.OpenBeta) (p : ℕ) (l : List (K × K)) : Open01 (M.betaValues ω p l) := by
  intro x hx
  unfold M.betaValues at hx
  obtain ⟨i, hi, rfl⟩ := List.mem_iff_getElem.1 hx
  rw [List.getElem_mapIdx]
  exact ⟨hω.beta_nonneg _ _ _, ho _ _ _⟩

theorem betaVec_open (hω : ω.Legal) (ho : ω.OpenBeta) (ps : List (K × K)) : KeepsR ω I (M.betaVec ps : M K σ (List K)) Open01 := by
  intro s hs
  unfold M.betaVec
  split
  · rename_i h; split at h <;> cases h; exact ⟨hs, betaValues_open hω ho _ _⟩
  · rename_i h; split at h <;> cases h; exact hs

theorem betaRep_open (hω : ω.Legal) (ho : ω.OpenBeta) (a b : K) (n : ℤ) : KeepsR ω I (M.betaRep a b n : M K σ (List K)) Open01 := by
  intro s hs
  unfold M.betaRep
  split
  · rename_i h; split at h <;> cases h; exact ⟨hs, betaValues_open hω ho _ _⟩
  · rename_i h; split at h <;> cases h; exact hs
end KeepsR

theorem Open01.nil : Open01 ([] : List K) := by simp [Open01]

theorem Open01.append {u v : List K} (hu : Open01 u) (hv : Open01 v) : Open01 (u ++ v) := fun x hx => (List.mem_append.1 hx).elim (hu x) (hv x)

namespace DP
/-- Sticks and total below one. -/
def Short (s : DP K) : Prop := Open01 s.v ∧ s.w.sum < 1

theorem short_init (alpha : K) : Short (init alpha) := ⟨Open01.nil, by simp [init]⟩

theorem complete_short (hω : ω.Legal) (ho : ω.OpenBeta) (n : PySize) : KeepsR ω Short (complete n : M K (DP K) _) (fun _ => True) := by
  unfold complete
  refine KeepsR.bind (KeepsR.lift _) fun _ _ => ?_
  split
  · exact KeepsR.raise _
  · refine KeepsR.bind KeepsR.self fun s _ => KeepsR.bind (KeepsR.whenM fun _ => ?_) fun _ _ => ?_
    · refine KeepsR.bind (KeepsR.betaRep_open hω ho _ _ _) fun nv hnv => ?_
      refine KeepsR.bind (KeepsR.assign fun s hs => ⟨Open01.append hs.1 hnv, hs.2⟩) fun _ _ => ?_
      exact KeepsR.assign fun s hs => ⟨hs.1, hs.1.total⟩
    · exact KeepsR.bind KeepsR.self fun s _ => KeepsR.pure trivial

theorem random_short (hω : ω.Legal) (ho : ω.OpenBeta) (n : PySize) : KeepsR ω Short (random n : M K (DP K) _) (fun _ => True) := by
  unfold random
  refine KeepsR.bind KeepsR.self fun s _ => KeepsR.ite (fun _ => KeepsR.raise _) fun _ => ?_
  split
  · exact KeepsR.raise _
  · exact KeepsR.raise _
  · refine KeepsR.bind (KeepsR.assign fun s hs => ⟨Open01.nil, hs.2⟩) fun _ _ => KeepsR.ite (fun _ => complete_short hω ho _) fun _ => ?_
    refine KeepsR.bind (R := fun _ => True) ?_ fun _ _ => KeepsR.bind KeepsR.self fun s _ => KeepsR.pure trivial
    unfold randomFitted
    refine KeepsR.bind KeepsR.self fun s _ => KeepsR.bind (KeepsR.lift _) fun a _ => KeepsR.bind (R := Open01) ?_ fun v hv => ?_
    · unfold drawSticks
      split
      · exact KeepsR.ite (fun _ => KeepsR.betaVec_open hω ho _) fun _ => KeepsR.betaVec_open hω ho _
      · exact KeepsR.betaVec_open hω ho _
    · refine KeepsR.bind (KeepsR.assign fun s hs => ⟨hv, hv.total⟩) fun _ _ => ?_
      exact KeepsR.whenM fun _ => KeepsR.bind (complete_short hω ho _) fun _ _ => KeepsR.pure trivial

theorem short_calls (hω : ω.Legal) (ho : ω.OpenBeta) : Mix.CallsKeep (cls : WeightClass K) ω Short := by
  have h : (core : WeightCore K).Stable ω Short :=
    { setD := fun _ _ h => h
      random := fun n => (random_short hω ho n).keeps
      complete := fun n => (KeepsR.bind (R' := fun _ => True) (complete_short hω ho n) fun _ _ => KeepsR.pure trivial).keeps }
  exact ⟨h, fun f x => tail_keeps h x f⟩
end DP

namespace Mix

/-- A new weight object, one constructor per class. -/
inductive NewWeights : ∀ C : WeightClass ℝ, C.State → Prop
  | dp (alpha : ℝ) : NewWeights DP.cls (DP.init alpha)
  | py (pyd alpha : ℝ) (s : PY ℝ) (h : PY.init pyd alpha = .ok s) : NewWeights PY.cls s
  | geo (a b p : ℝ) (h : 0 ≤ p ∧ p ≤ 1) : NewWeights Geo.cls (Geo.init a b p)
  | bib (x alpha a b p : ℝ) (m : PMethod) (hp : 0 ≤ p ∧ p ≤ 1) (s : BIB ℝ) (h : BIB.init x alpha a b p m = .ok s) : NewWeights BIB.cls s
  | bid (F : SpecFun ℝ) (alpha a : ℝ) : NewWeights (BID.cls F) (BID.init alpha a)
  | bber (p alpha : ℝ) : NewWeights BBer.cls (BBer.init p alpha)
  | bbin (n : ℤ) (alpha : ℝ) : NewWeights BBin.cls (BBin.init n alpha)
  | dirDist (n : ℤ) (alpha : List ℝ) : NewWeights DirDist.cls (DirDist.initList n alpha)
  | equal (n : ℤ) : NewWeights Equal.cls (Equal.init n)
  | freq (n : ℤ) : NewWeights Freq.cls (Freq.init n)

theorem NewWeights.library {C : WeightClass ℝ} {s : C.State} (h : NewWeights C s) : Library C := by
  cases h
  · exact .dp
  · exact .py
  · exact .geo
  · exact .bib
  · exact .bid _
  · exact .bber
  · exact .bbin
  · exact .dirDist
  · exact .equal
  · exact .freq

theorem NewWeights.empty {C : WeightClass ℝ} {s : C.State} (h : NewWeights C s) : C.getW s = [] := by
  cases h
  · rfl
  · rename_i hi
    unfold PY.init at hi
    split at hi <;> cases hi
    rfl
  · rfl
  · rename_i hi
    unfold BIB.init at hi
    split at hi <;> cases hi
    rfl
  all_goals rfl

/-- The weights of every class are a sub-probability vector, whatever the mixture calls. -/
theorem NewWeights.keeps {C : WeightClass ℝ} {s : C.State} (h : NewWeights C s) {ω : Oracle ℝ} (hω : ω.Legal) :
    ∃ J, CallsKeep C ω J ∧ (∀ t, J t → SubProb (C.getW t)) ∧ J s := by
  cases h
  · exact ⟨DP.Inv, ⟨DP.stable hω, fun f x => Verif.tail_keeps (DP.stable hω) x f⟩, fun t ht => ht.2, DP.inv_init _⟩
  · rename_i hi
    refine ⟨PY.Inv, ⟨PY.stable hω, fun f x => Verif.tail_keeps (PY.stable hω) x f⟩, fun t ht => ht.2, ?_⟩
    unfold PY.init at hi
    split at hi <;> cases hi
    exact ⟨Unit01.nil, SubProb.nil⟩
  · rename_i hp
    exact ⟨Geo.Inv, ⟨Geo.stable hω, fun f x => Geo.tail_keeps x⟩, fun t ht => ht.2.1, ⟨Unit01.nil, SubProb.nil, hp⟩⟩
  · rename_i hp _ hi
    refine ⟨BIB.Inv, ⟨BIB.stable hω, fun f x => Verif.tail_keeps (BIB.stable hω) x f⟩, fun t ht => ht.2.1, ?_⟩
    unfold BIB.init at hi
    split at hi <;> cases hi
    exact ⟨Unit01.nil, SubProb.nil, hp⟩
  · exact ⟨BID.Inv, ⟨BID.stable hω _, fun f x => Verif.tail_keeps (BID.stable hω _) x f⟩, fun t ht => ht.2.1, ⟨Unit01.nil, SubProb.nil, Unit01.nil⟩⟩
  · exact ⟨BBer.Inv, ⟨BBer.stable hω, fun f x => Verif.tail_keeps (BBer.stable hω) x f⟩, fun t ht => ht.2, ⟨Unit01.nil, SubProb.nil⟩⟩
  · exact ⟨BBin.Inv, ⟨BBin.stable hω, fun f x => Verif.tail_keeps (BBin.stable hω) x f⟩, fun t ht => ht.2, ⟨Unit01.nil, SubProb.nil⟩⟩
  · exact ⟨DirDist.Inv, ⟨DirDist.stable hω, fun f x => Verif.tail_keeps (DirDist.stable hω) x f⟩, fun t ht => ht, SubProb.nil⟩
  · exact ⟨Equal.Inv, ⟨Equal.stable, fun f x => Verif.tail_keeps Equal.stable x f⟩, fun t ht => ht, SubProb.nil⟩
  · exact ⟨Freq.Inv, ⟨Freq.stable, fun f x => Verif.tail_keeps Freq.stable x f⟩, fun t ht => ht, SubProb.nil⟩
end Mix
end Verif
