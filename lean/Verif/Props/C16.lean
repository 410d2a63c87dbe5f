import Verif.Lemmas.BIDOk
import Verif.Lemmas.Demo
import Verif.Props.C10

/-!
# C16: `BetaInDirichlet(a=0)` is a geometric structure

In every history of a `BetaInDirichlet` with `a = 0`, including calls that raised and for every generator, the weights held by the object
form a geometric sequence `x(1-x)^j`, and all sticks are equal.
-/

set_option linter.unusedSectionVars false

namespace Verif
open Spec
variable {K : Type} [Field K] [LinearOrder K] [IsStrictOrderedRing K] {ω : Oracle K}

/-- `w` is a geometric sequence. -/
def GeometricWeights (w : List K) : Prop := ∃ x, IsGeometric x w.length w

namespace BID

/-- The inner table holds one stick `x`, used at least once, and all sticks are equal to it. -/
structure ZGood (x : K) (s : BID K) : Prop where
  a : s.a = 0
  dBase : ∀ y ∈ s.dBase, y = 0
  vBase : s.vBase = [x]
  count : ∃ c, 1 ≤ c ∧ s.countBase = [c]
  v : ∀ y ∈ s.v, y = x

/-- Invariant of all histories with `a = 0`. -/
structure ZInv (s : BID K) : Prop where
  a : s.a = 0
  dBase : ∀ y ∈ s.dBase, y = 0
  table : (s.vBase = [] ∧ s.v = []) ∨ ∃ x, ZGood x s
  w : GeometricWeights s.w

theorem ZGood.w {x : K} {s : BID K} (h : ZGood x s) : GeometricWeights (stickWeights s.v) :=
  ⟨x, by rw [stickWeights_length]; exact stickWeights_const h.v⟩

theorem growOne_z (hω : ω.Legal) {x : K} (s : BID K × ℕ) (hs : ZGood x s.1) :
    wp ω growOne (fun _ t => ZGood x t.1) (fun _ _ => False) s := by
  obtain ⟨c, hc, hcb⟩ := hs.count
  have hurn : urn s.1.countBase s.1.a = [(c : K) / ((c : K) + 0), 0 / ((c : K) + 0)] := by
    simp [urn, hcb, hs.a]
  have hc0 : (0 : K) < c := by exact_mod_cast hc
  have hz : ω.choice s.2 (urn s.1.countBase s.1.a) = 0 := by
    obtain ⟨y, h1, h2⟩ := hω.choice_pos s.2 (urn s.1.countBase s.1.a) (by
      rw [hurn]; intro y hy; fin_cases hy
      · exact div_nonneg hc0.le (by linarith)
      · simp) (by rw [hurn]; simp [hc0.ne'])
    rw [hurn] at h1 ⊢
    match hk : ω.choice s.2 [(c : K) / ((c : K) + 0), 0 / ((c : K) + 0)] with
    | 0 => rfl
    | 1 => rw [hk] at h1; simp at h1; exact absurd h2 (by rw [← h1]; exact lt_irrefl 0)
    | n + 2 => rw [hk] at h1; simp at h1
  unfold growOne
  rw [wp_bind, wp_self, wp_ite]
  refine ⟨fun h => h (by rw [hurn, hs.vBase]; rfl), fun _ => ?_⟩
  rw [wp_bind, wp_choice]
  refine ⟨?_, fun _ => ?_⟩
  · rintro ⟨y, hy, h⟩
    rw [hurn] at hy
    fin_cases hy
    · exact absurd (div_nonneg hc0.le (by linarith : (0 : K) ≤ c + 0)) (not_le.2 h)
    · simp at h
  · rw [hz]
    unfold useStick
    rw [wp_bind, wp_bind, wp_self, wp_ite]
    refine ⟨fun _ => ?_, fun h => absurd (by rw [hs.vBase]; simp) h⟩
    dsimp only
    rw [hs.vBase, wp_bind, wp_lift]
    refine ⟨?_, nofun⟩
    rintro _ ⟨⟩
    rw [wp_bind, wp_assign, wp_assign, wp_assign]
    refine ⟨hs.a, ?_, hs.vBase, ⟨c + 1, by omega, by simp [hcb]⟩, ?_⟩
    · intro y hy
      rcases List.mem_append.1 hy with h | h
      · exact hs.dBase y h
      · simpa using h
    · intro y hy
      rcases List.mem_append.1 hy with h | h
      · exact hs.v y h
      · simpa using h

theorem grow_z (hω : ω.Legal) {x : K} (k : ℕ) (s : BID K × ℕ) (hs : ZGood x s.1) :
    wp ω (grow k) (fun _ t => ZGood x t.1) (fun _ _ => False) s := by
  induction k generalizing s with
  | zero => exact hs
  | succ k ih =>
    unfold grow
    rw [wp_bind]
    exact wp_mono (growOne_z hω s hs) (fun _ t ht => ih t ht) (fun _ _ h => h)

theorem growAll_z (hω : ω.Legal) {x : K} (size : PySize) (s : BID K × ℕ) (hs : ZGood x s.1) (hw : GeometricWeights s.1.w) :
    wp ω (match size.toInt? with
      | none => M.raise .typeError
      | some n => do
        let s ← M.self
        grow (n - s.v.length).toNat
        M.assign (fun s => { s with w := stickWeights s.v }) : M K (BID K) Unit)
      (fun _ t => ZInv t.1) (fun _ t => ZInv t.1) s := by
  cases size.toInt? with
  | none => exact ⟨hs.a, hs.dBase, .inr ⟨x, hs⟩, hw⟩
  | some n =>
    dsimp only
    rw [wp_bind, wp_self, wp_bind]
    refine wp_mono (grow_z hω _ s hs) ?_ (fun _ _ h => h.elim)
    intro _ t ht
    exact ⟨ht.a, ht.dBase, .inr ⟨x, ht.1, ht.2, ht.3, ht.4, ht.5⟩, ht.w⟩

theorem complete_z (hω : ω.Legal) (size : PySize) (s : BID K × ℕ) (hs : ZInv s.1) :
    wp ω (complete size) (fun _ t => ZInv t.1) (fun _ t => ZInv t.1) s := by
  unfold complete
  rw [wp_bind, wp_self, wp_bind, wp_whenM]
  refine ⟨fun h0 => ?_, fun h0 => ?_⟩
  · have h0' := List.length_eq_zero_iff.1 h0
    rw [wp_bind, wp_betaRep]
    refine ⟨fun _ => hs, fun _ _ _ => ?_⟩
    rw [wp_bind, wp_assign, wp_assign]
    rcases hs.table with ⟨_, hv⟩ | ⟨x, hx⟩
    · refine growAll_z hω size _ (x := ω.beta s.2 1 s.1.alpha) ⟨hs.a, hs.dBase, rfl, ⟨1, le_rfl, rfl⟩, ?_⟩ hs.w
      dsimp only
      rw [hv]
      exact nofun
    · rw [hx.vBase] at h0'; cases h0'
  · rcases hs.table with ⟨h, _⟩ | ⟨x, hx⟩
    · rw [h] at h0; exact absurd rfl h0
    · exact growAll_z hω size s hx hs.w

theorem updateAll_z (F : SpecFun K) (a_c b_c js : List ℕ) (s : BID K × ℕ) (ha : s.1.a = 0) (hd : ∀ y ∈ s.1.dBase, y = 0) :
    wp ω (updateAll F a_c b_c js) (fun _ t => (∀ y ∈ t.1.dBase, y = 0) ∧ s.1.dBase.length ≤ t.1.dBase.length ∧
      t.1 = { s.1 with dBase := t.1.dBase }) (fun _ _ => False) s := by
  induction js generalizing s with
  | nil => exact ⟨hd, le_refl _, rfl⟩
  | cons j js ih =>
    unfold updateAll updateOne
    rw [wp_bind, wp_bind, wp_self, if_pos ha, wp_assign]
    have h1 : setBase j 0 s.1 = { s.1 with dBase := (setBase j 0 s.1).dBase } := by
      unfold setBase; split <;> rfl
    have h2 : s.1.dBase.length ≤ (setBase j 0 s.1).dBase.length := by
      unfold setBase; split <;> simp
    have h3 : ∀ y ∈ (setBase j 0 s.1).dBase, y = 0 := by
      unfold setBase
      split
      · intro y hy
        rcases List.mem_or_eq_of_mem_set hy with h | h
        · exact hd y h
        · exact h
      · intro y hy
        rcases List.mem_append.1 hy with h | h
        · exact hd y h
        · simpa using h
    refine wp_mono (ih (setBase j 0 s.1, s.2) (by rw [h1]; exact ha) h3) ?_ (fun _ _ h => h)
    rintro _ t ⟨e1, e2, e3⟩
    refine ⟨e1, le_trans h2 e2, ?_⟩
    rw [e3, h1]

theorem randomFitted_z (F : SpecFun K) (s : BID K × ℕ) (ha : s.1.a = 0) (hd : ∀ y ∈ s.1.dBase, y = 0)
    (hv : s.1.v = []) (hvb : s.1.vBase = []) (hw : GeometricWeights s.1.w) :
    wp ω (randomFitted F) (fun _ t => ZInv t.1) (fun _ t => ZInv t.1) s := by
  have hbase : ∀ t : BID K, t.a = 0 → (∀ y ∈ t.dBase, y = 0) → t.v = [] → t.vBase = [] → GeometricWeights t.w → ZInv t :=
    fun t h1 h2 h3 h4 h5 => ⟨h1, h2, .inl ⟨h4, h3⟩, h5⟩
  unfold randomFitted
  rw [wp_bind, wp_self, wp_bind, wp_lift]
  refine ⟨fun m hm => ?_, fun _ _ => hbase _ ha hd hv hvb hw⟩
  rw [wp_bind, wp_assign, wp_bind, wp_self]
  simp only
  set s1 : BID K := (if (s.1.dBase.length : ℤ) < m + 1 then
      { s.1 with dBase := s.1.dBase ++ List.replicate (m + 1 - s.1.dBase.length).toNat 0 }
    else if (s.1.dBase.length : ℤ) > m + 1 then { s.1 with dBase := Py.sliceTo s.1.dBase (m + 1) } else s.1) with hs1
  have h1 : s1 = { s.1 with dBase := s1.dBase } := by
    rw [hs1]; split
    · rfl
    · split <;> rfl
  have h2 : ∀ y ∈ s1.dBase, y = 0 := by
    rw [hs1]
    split
    · intro y hy
      rcases List.mem_append.1 hy with h | h
      · exact hd y h
      · exact List.eq_of_mem_replicate h
    · split
      · exact fun y hy => hd y (mem_of_mem_sliceTo hy)
      · exact hd
  clear_value s1
  have hz1 : ZInv s1 := by
    rw [h1]; exact hbase _ ha h2 hv hvb hw
  rw [wp_bind, wp_lift]
  refine ⟨fun k hk => ?_, fun _ _ => hz1⟩
  have hne : s1.dBase ≠ [] := by rintro h; rw [h] at hk; cases hk
  have hk0 : k = 0 := by
    obtain ⟨k', hk', hm', _⟩ := maxNat_ok hne
    rw [hk] at hk'; cases hk'
    exact h2 k hm'
  subst hk0
  rw [wp_bind, wp_lift]
  refine ⟨fun a_c _ => ?_, fun _ _ => hz1⟩
  rw [wp_bind]
  refine wp_mono (drawBase_post _ _ _ _ _ _) ?_ (fun _ t e => by rw [e]; exact hz1)
  rintro vb t ⟨e2, hvbl⟩
  obtain ⟨x, rfl⟩ : ∃ x, vb = [x] := by
    rw [List.length_range] at hvbl
    exact List.length_eq_one_iff.1 hvbl
  rw [wp_bind, wp_assign, wp_bind]
  refine wp_mono (updateAll_z F a_c (revTails a_c) (List.range (m + 1).toNat) _ (by rw [e2, h1]; exact ha) (by rw [e2]; exact h2)) ?_
    (fun _ _ h => h.elim)
  rintro _ u ⟨f1, f2, f3⟩
  rw [wp_bind, wp_assign, wp_bind, wp_self, wp_bind, wp_lift]
  have hua : u.1.a = 0 := by rw [f3, e2, h1]; exact ha
  have huv : u.1.v = [] := by rw [f3, e2, h1]; exact hv
  have huvb : u.1.vBase = [x] := by rw [f3]
  have huw : GeometricWeights u.1.w := by rw [f3, e2, h1]; exact hw
  have hcount : ∃ c, 1 ≤ c ∧ (List.range u.1.vBase.length).map (fun j => u.1.dBase.count j) = [c] := by
    refine ⟨u.1.dBase.count 0, ?_, by rw [huvb]; rfl⟩
    have : 0 < u.1.dBase.length := by
      rw [e2] at f2
      exact lt_of_lt_of_le (List.length_pos_iff.2 hne) f2
    obtain ⟨y, hy⟩ := List.exists_mem_of_length_pos this
    have h0 := f1 y hy
    subst h0
    exact List.count_pos_iff.2 hy
  have hgood : ZGood x { u.1 with countBase := (List.range u.1.vBase.length).map (fun j => u.1.dBase.count j) } :=
    ⟨hua, f1, huvb, hcount, by dsimp only; rw [huv]; exact nofun⟩
  refine ⟨fun v hg => ?_, fun _ _ => ⟨hgood.a, hgood.dBase, .inr ⟨x, hgood⟩, huw⟩⟩
  rw [wp_bind, wp_assign, wp_bind, wp_self, wp_pure]
  have hvx : ∀ y ∈ v, y = x := by
    intro y hy
    have := gather_mem hg y hy
    rw [show ({ u.1 with countBase := (List.range u.1.vBase.length).map (fun j => u.1.dBase.count j) } : BID K).vBase = [x] from huvb] at this
    simpa using this
  have hgood' : ZGood x { u.1 with countBase := (List.range u.1.vBase.length).map (fun j => u.1.dBase.count j), v := v,
                                    w := stickWeights v } := ⟨hua, f1, huvb, hcount, hvx⟩
  exact ⟨hua, f1, .inr ⟨x, hgood'⟩, hgood'.w⟩

theorem random_z (hω : ω.Legal) (F : SpecFun K) (size : PySize) (s : BID K × ℕ) (hs : ZInv s.1) :
    wp ω (random F size) (fun _ t => ZInv t.1) (fun _ t => ZInv t.1) s := by
  have hz : ZInv { s.1 with v := [], vBase := [] } := ⟨hs.a, hs.dBase, .inl ⟨rfl, rfl⟩, hs.w⟩
  have key : ∀ sz, wp ω (do
      M.assign (fun s => { s with v := [], vBase := [] })
      if s.1.d.length = 0 then do
        complete sz
        let s ← M.self
        pure s.w
      else randomFitted F : M K (BID K) (List K)) (fun _ t => ZInv t.1) (fun _ t => ZInv t.1) s := by
    intro sz
    rw [wp_bind, wp_assign, wp_ite]
    refine ⟨fun _ => ?_, fun _ => randomFitted_z F _ hs.a hs.dBase rfl rfl hs.w⟩
    rw [wp_bind]
    exact wp_mono (complete_z hω sz _ hz) (fun _ _ h => h) (fun _ _ h => h)
  unfold random
  rw [wp_bind, wp_self, wp_ite]
  refine ⟨fun _ => hs, fun _ => ?_⟩
  cases size with
  | np n => exact hs
  | other => exact hs
  | none => exact key _
  | int n => exact key _

theorem z_stable (hω : ω.Legal) (F : SpecFun K) : (core F : WeightCore K).Stable ω ZInv where
  setD := fun _ s h => ⟨h.a, h.dBase, h.table.imp id (fun ⟨x, hx⟩ => ⟨x, hx.1, hx.2, hx.3, hx.4, hx.5⟩), h.w⟩
  random := fun n => (KeepsR.of_wp (R := fun _ => True) fun s hs =>
    wp_mono (random_z hω F n s hs) (fun _ _ h => ⟨h, trivial⟩) (fun _ _ h => h)).keeps
  complete := fun n => (KeepsR.bind (R' := fun _ => True) (KeepsR.of_wp (R := fun _ => True) fun s hs =>
    wp_mono (complete_z hω n s hs) (fun _ _ h => ⟨h, trivial⟩) (fun _ _ h => h)) fun _ _ => KeepsR.pure trivial).keeps
end BID

/-- After every history of a `BetaInDirichlet(alpha, a=0)`: the weights are `x(1-x)^j` and all sticks are equal. -/
theorem C16_geometric (F : SpecFun K) (log : K → K) (hω : ω.Legal) (pos : ℕ) (alpha : K) (ops : List (WOp K)) :
    let s := ((BID.cls F).run log ω (BID.init alpha 0, pos) ops).1
    GeometricWeights s.w ∧ ∀ x ∈ s.v, ∀ y ∈ s.v, x = y := by
  have h := WeightCore.run_keeps (BID.z_stable hω F) log ops (BID.init alpha 0, pos)
    ⟨rfl, nofun, .inl ⟨rfl, rfl⟩, 0, ⟨rfl, fun j hj => absurd hj (by simp [BID.init])⟩⟩
  refine ⟨h.w, fun x hx y hy => ?_⟩
  rcases h.table with ⟨_, hv⟩ | ⟨z, hz⟩
  · rw [show ((BID.cls F).run log ω (BID.init alpha 0, pos) ops).1.v = [] from hv] at hx; cases hx
  · rw [hz.v x hx, hz.v y hy]

/-! Non-vacuity: three weights after a fit, two more by `complete`. -/
example : ((BID.cls ⟨id, id⟩).run id (demo : Oracle ℚ) (BID.init 1 0, 0) [.fit [2, 0], .random .none, .complete (.int 4)]).1.w
    = [1/2, 1/4, 1/8, 1/16] := by decide +kernel

end Verif
