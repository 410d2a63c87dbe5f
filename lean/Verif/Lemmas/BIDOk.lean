import Verif.Lemmas.Reach

/-! # `BetaInDirichlet.random` after `fit`: no exception, inner labels in range -/

set_option linter.unusedSectionVars false
set_option linter.unusedSimpArgs false

namespace Verif
open Spec
variable {K : Type} [Field K] [LinearOrder K] [IsStrictOrderedRing K] {ω : Oracle K}
namespace BID

theorem maxNat_ok {l : List ℕ} (h : l ≠ []) : ∃ m, maxNat l = .ok m ∧ m ∈ l ∧ ∀ x ∈ l, x ≤ m := by
  have key : ∀ (xs : List ℕ) (x : ℕ), (xs.foldl max x ∈ x :: xs) ∧ ∀ y ∈ x :: xs, y ≤ xs.foldl max x := by
    intro xs
    induction xs with
    | nil => intro x; simp
    | cons z zs ih =>
      intro x
      obtain ⟨h1, h2⟩ := ih (max x z)
      rw [List.foldl_cons]
      refine ⟨?_, ?_⟩
      · rcases List.mem_cons.1 h1 with h | h
        · rw [h]; rcases max_choice x z with h' | h' <;> rw [h'] <;> simp
        · simp [h]
      · have hm := h2 (max x z) (by simp)
        intro y hy
        rcases List.mem_cons.1 hy with rfl | hy
        · exact le_trans (le_max_left _ _) hm
        · rcases List.mem_cons.1 hy with rfl | hy
          · exact le_trans (le_max_right _ _) hm
          · exact h2 y (by simp [hy])
  cases l with
  | nil => exact absurd rfl h
  | cons x xs => exact ⟨_, rfl, key xs x⟩

theorem index_ok {α : Type} {l : List α} {j : ℕ} (h : j < l.length) : Py.index l (j : ℤ) = .ok l[j] := by
  unfold Py.index
  simp [h]

theorem logProb_ok (F : SpecFun K) (s : BID K) (aj bj : ℕ) (red : List ℕ) (k : ℕ) (hr : ∀ x ∈ red, x < s.vBase.length)
    (fuel dd : ℕ) (nb : Bool) : ∃ l, logProb F s aj bj red k fuel dd nb = .ok l ∧ l.length ≤ fuel ∧ (nb = false → 1 ≤ fuel → l ≠ []) := by
  induction fuel generalizing dd nb with
  | zero => exact ⟨[], rfl, le_refl _, fun _ h => absurd h (by omega)⟩
  | succ f ih =>
    unfold logProb
    split
    · obtain ⟨l, hl, h1, _⟩ := ih (dd + 1) true
      rw [hl]
      exact ⟨_, rfl, by simpa using h1, fun _ _ => by simp⟩
    · rename_i hc
      split
      · rename_i h0
        have hnb : nb = true := by
          cases nb
          · exact absurd ⟨h0, rfl⟩ hc
          · rfl
        obtain ⟨l, hl, h1, _⟩ := ih (dd + 1) nb
        split
        · rw [hl]
          exact ⟨_, rfl, by simpa using h1, fun _ _ => by simp⟩
        · exact ⟨l, hl, by omega, fun h => absurd (hnb.symm.trans h) (by simp)⟩
      · rename_i h0
        have hmem : dd ∈ red := List.count_pos_iff.1 (by omega)
        rw [index_ok (hr dd hmem)]
        obtain ⟨l, hl, h1, _⟩ := ih (dd + 1) nb
        simp only [hl]
        exact ⟨_, rfl, by simpa using h1, fun _ _ => by simp⟩

theorem drawBase_ok {alpha : K} (ha : 0 < alpha) (a b dB js : List ℕ) (s : BID K × ℕ) :
    wp ω (drawBase alpha a b dB js) (fun r t => t.1 = s.1 ∧ r.length = js.length) (fun _ _ => False) s := by
  induction js generalizing s with
  | nil => exact ⟨rfl, rfl⟩
  | cons j js ih =>
    unfold drawBase
    rw [wp_bind, wp_beta]
    have h1 : (0 : K) < 1 + (baseSum a dB j : K) := by
      have : (0 : K) ≤ (baseSum a dB j : K) := Nat.cast_nonneg _
      linarith
    have h2 : (0 : K) < alpha + (baseSum b dB j : K) := by
      have : (0 : K) ≤ (baseSum b dB j : K) := Nat.cast_nonneg _
      linarith
    refine ⟨fun h => ?_, fun _ _ => ?_⟩
    · rcases h with h | h
      · exact absurd h1 (not_lt.2 h)
      · exact absurd h2 (not_lt.2 h)
    · rw [wp_bind]
      refine wp_mono (ih _) ?_ (fun _ _ h => h)
      rintro r t ⟨e1, e2⟩
      exact ⟨e1, by simp [e2]⟩

/-- State of the update loop: `n` inner labels, all of them numbers of inner sticks. -/
structure UInv (n : ℕ) (alpha a : K) (s : BID K) : Prop where
  len : s.dBase.length = n
  lt : ∀ x ∈ s.dBase, x < s.vBase.length
  alpha : s.alpha = alpha
  a : s.a = a

theorem setBase_len {j x : ℕ} {s : BID K} (h : j < s.dBase.length) :
    setBase j x s = { s with dBase := s.dBase.set j x } := by
  unfold setBase; rw [if_pos h]

theorem updateOne_ok (hω : ω.Legal) (F : SpecFun K) {n : ℕ} {alpha a : K} (hal : 0 < alpha) (hn : a = 0 ∨ 2 ≤ n)
    {a_c b_c : List ℕ} (hac : a_c.length = n) (hbc : b_c.length = n) {j : ℕ} (hj : j < n) (s : BID K × ℕ)
    (hs : UInv n alpha a s.1) : wp ω (updateOne F a_c b_c j) (fun _ t => UInv n alpha a t.1) (fun _ _ => False) s := by
  have hjd : j < s.1.dBase.length := by rw [hs.len]; exact hj
  unfold updateOne
  rw [wp_bind, wp_self, wp_ite]
  refine ⟨fun _ => ?_, fun ha0 => ?_⟩
  · rw [wp_assign, setBase_len hjd]
    refine ⟨by simp [hs.len], ?_, hs.alpha, hs.a⟩
    intro x hx
    have hpos : 0 < s.1.vBase.length := by
      have := hs.lt s.1.dBase[j] (List.getElem_mem hjd)
      omega
    rcases List.mem_or_eq_of_mem_set hx with h | rfl
    · exact hs.lt x h
    · exact hpos
  · have hn2 : 2 ≤ n := by
      rcases hn with h | h
      · exact absurd (hs.a.trans h) ha0
      · exact h
    have hredlen : (Py.delete s.1.dBase j).length = n - 1 := by
      simp only [Py.delete, List.length_eraseIdx, hs.len, hj, if_true]
    have hredne : Py.delete s.1.dBase j ≠ [] := by
      intro h; rw [h] at hredlen; simp at hredlen; omega
    have hredlt : ∀ x ∈ Py.delete s.1.dBase j, x < s.1.vBase.length :=
      fun x hx => hs.lt x (List.mem_of_mem_eraseIdx hx)
    obtain ⟨k, hk, hkm, _⟩ := maxNat_ok hredne
    obtain ⟨lp, hlp, hlen, hne⟩ := logProb_ok F s.1 a_c[j] b_c[j] (Py.delete s.1.dBase j) k hredlt (k + 2) 0 false
    have hz := hω.gumbel_lt s.2 lp (hne rfl (by omega))
    have hkv := hredlt k hkm
    have hfin : ∀ q : ℕ, wp ω (do
        let s ← M.self
        let m ← M.lift (maxNat s.dBase)
        M.whenM (m ≤ s.vBase.length) do
          let nv ← M.beta 1 s.alpha
          M.assign (fun s => { s with vBase := s.vBase ++ [nv] }) : M K (BID K) Unit)
        (fun _ t => UInv n alpha a t.1) (fun _ _ => False) ({ s.1 with dBase := s.1.dBase.set j (ω.gumbelMax s.2 lp) }, q) := by
      intro q
      obtain ⟨m, hm, hmm, _⟩ := maxNat_ok (l := s.1.dBase.set j (ω.gumbelMax s.2 lp)) (by
        intro h
        have := congrArg List.length h
        simp at this; rw [this] at hjd; simp at hjd)
      have hmem : ∀ x ∈ s.1.dBase.set j (ω.gumbelMax s.2 lp), x ≤ s.1.vBase.length := by
        intro x hx
        rcases List.mem_or_eq_of_mem_set hx with h | rfl
        · exact (hs.lt x h).le
        · omega
      rw [wp_bind, wp_self, hm, wp_bind, wp_lift]
      refine ⟨?_, nofun⟩
      rintro _ ⟨⟩
      rw [wp_whenM, wp_bind, wp_beta]
      refine ⟨fun _ => ⟨fun h => ?_, fun _ _ => ?_⟩, fun h => absurd (hmem m hmm) h⟩
      · rcases h with h | h
        · exact absurd h (not_le.2 zero_lt_one)
        · exact absurd (by rw [← hs.alpha] at hal; exact hal) (not_lt.2 h)
      · rw [wp_assign]
        refine ⟨by simp [hs.len], fun x hx => ?_, hs.alpha, hs.a⟩
        have := hmem x hx
        simp only [List.length_append, List.length_singleton]
        omega
    rw [wp_bind, hk, wp_lift]
    refine ⟨?_, nofun⟩
    rintro _ ⟨⟩
    rw [index_ok (by omega : j < a_c.length), index_ok (by omega : j < b_c.length), wp_bind, wp_lift]
    refine ⟨?_, nofun⟩
    rintro _ ⟨⟩
    rw [wp_bind, wp_lift]
    refine ⟨?_, nofun⟩
    rintro _ ⟨⟩
    rw [hlp, wp_bind, wp_lift]
    refine ⟨?_, nofun⟩
    rintro _ ⟨⟩
    rw [wp_bind, wp_gumbelMax]
    refine ⟨fun h => absurd h (hne rfl (by omega)), fun _ => ?_⟩
    rw [wp_bind, wp_assign, setBase_len hjd]
    exact hfin _

theorem updateAll_ok (hω : ω.Legal) (F : SpecFun K) {n : ℕ} {alpha a : K} (hal : 0 < alpha) (hn : a = 0 ∨ 2 ≤ n)
    {a_c b_c : List ℕ} (hac : a_c.length = n) (hbc : b_c.length = n) (js : List ℕ) (hj : ∀ j ∈ js, j < n) (s : BID K × ℕ)
    (hs : UInv n alpha a s.1) : wp ω (updateAll F a_c b_c js) (fun _ t => UInv n alpha a t.1) (fun _ _ => False) s := by
  induction js generalizing s with
  | nil => exact hs
  | cons j js ih =>
    unfold updateAll
    rw [wp_bind]
    refine wp_mono (updateOne_ok hω F hal hn hac hbc (hj j (by simp)) s hs) ?_ (fun _ _ h => h)
    intro _ t ht
    exact ih (fun i hi => hj i (by simp [hi])) t ht

/-- What a fitted draw leaves behind: sticks read from the inner table, inner labels in range. -/
structure FInv (n : ℕ) (s : BID K) : Prop where
  len : s.dBase.length = n
  lt : ∀ x ∈ s.dBase, x < s.vBase.length
  sticks : ∀ (i x : ℕ), s.dBase[i]? = some x → s.v[i]? = s.vBase[x]?
  vlen : s.v.length = n
  w : s.w = stickWeights s.v

theorem randomFitted_ok (hω : ω.Legal) (F : SpecFun K) (s : BID K × ℕ) (hal : 0 < s.1.alpha) (hd : NonNegLabels s.1.d)
    {N : ℕ} (hm : IsMaxLabel s.1.d ((N : ℤ) - 1)) (hn : s.1.a = 0 ∨ 2 ≤ N) :
    wp ω (randomFitted F) (fun r t => r = t.1.w ∧ FInv N t.1) (fun _ _ => False) s := by
  have hN : 1 ≤ N := by have := hd _ hm.1; omega
  have hne : s.1.d ≠ [] := List.ne_nil_of_mem hm.1
  obtain ⟨a_c, hb, hA⟩ := bincount_ok hd
  have hac : a_c.length = N := by have := hA.length_eq hm; omega
  have hbc : (revTails a_c).length = N := by rw [revTails_length (hA.ne_nil hne)]; exact hac
  unfold randomFitted
  rw [wp_bind, wp_self, maxInt_eq_ok_iff.2 hm, wp_bind, wp_lift]
  refine ⟨?_, nofun⟩
  rintro _ ⟨⟩
  rw [wp_bind, wp_assign, wp_bind, wp_self]
  have e1 : (N : ℤ) - 1 + 1 = N := by omega
  simp only [e1]
  set s1 : BID K := (if (s.1.dBase.length : ℤ) < (N : ℤ) then
      { s.1 with dBase := s.1.dBase ++ List.replicate ((N : ℤ) - s.1.dBase.length).toNat 0 }
    else if (s.1.dBase.length : ℤ) > N then { s.1 with dBase := Py.sliceTo s.1.dBase N } else s.1) with hs1
  have hlen : s1.dBase.length = N := by
    rw [hs1]
    split
    · simp; omega
    · split
      · rw [sliceTo_nonneg _ (by omega)]; simp; omega
      · omega
  have hpar : s1.alpha = s.1.alpha ∧ s1.a = s.1.a ∧ s1.d = s.1.d := by
    rw [hs1]; split
    · exact ⟨rfl, rfl, rfl⟩
    · split <;> exact ⟨rfl, rfl, rfl⟩
  clear_value s1
  obtain ⟨k, hk, _, hkmax⟩ := maxNat_ok (l := s1.dBase) (by intro h; rw [h] at hlen; simp at hlen; omega)
  rw [hk, wp_bind, wp_lift]
  refine ⟨?_, nofun⟩
  rintro _ ⟨⟩
  rw [hpar.2.2, hb, wp_bind, wp_lift]
  refine ⟨?_, nofun⟩
  rintro _ ⟨⟩
  rw [wp_bind]
  refine wp_mono (drawBase_ok (by rw [hpar.1]; exact hal) _ _ _ _ _) ?_ (fun _ _ h => h)
  rintro vb t ⟨e2, hvb⟩
  rw [wp_bind, wp_assign, wp_bind]
  have hU : UInv N s.1.alpha s.1.a { t.1 with vBase := vb } := by
    rw [e2]
    refine ⟨hlen, fun x hx => ?_, hpar.1, hpar.2.1⟩
    have := hkmax x hx
    simp only [hvb, List.length_range]; omega
  refine wp_mono (updateAll_ok hω F hal hn hac hbc (List.range ((N : ℤ)).toNat) (by intro j hj; simpa using hj) _ hU) ?_ (fun _ _ h => h)
  intro _ u hu
  rw [wp_bind, wp_assign, wp_bind, wp_self, wp_bind, wp_lift]
  obtain ⟨xs, hxs⟩ := Verif.gather_ok (l := u.1.vBase) (is := u.1.dBase.map (fun (j : ℕ) => (j : ℤ))) (by
    intro i hi
    obtain ⟨j, hj, rfl⟩ := List.mem_map.1 hi
    have := hu.lt j hj
    omega)
  refine ⟨?_, fun e he => by rw [hxs] at he; cases he⟩
  intro v hv
  rw [wp_bind, wp_assign, wp_bind, wp_self, wp_pure]
  refine ⟨rfl, hu.len, hu.lt, ?_, ?_, rfl⟩
  · intro i x hx
    have := Verif.gather_get hv i (i := (x : ℤ)) (by simp [hx]) (by omega)
    simpa using this
  · rw [BBer.gather_length hv]; simp [hu.len]

theorem random_ok (hω : ω.Legal) (F : SpecFun K) (s : BID K × ℕ) (hal : 0 < s.1.alpha) (hd : NonNegLabels s.1.d)
    {N : ℕ} (hm : IsMaxLabel s.1.d ((N : ℤ) - 1)) (hn : s.1.a = 0 ∨ 2 ≤ N) {size : PySize}
    (hs : size = .none ∨ ∃ n, size = .int n) :
    wp ω (random F size) (fun r t => r = t.1.w ∧ FInv N t.1) (fun _ _ => False) s := by
  have hne : ¬ s.1.d.length = 0 := by
    rw [List.length_eq_zero_iff]; exact List.ne_nil_of_mem hm.1
  unfold random
  rw [wp_bind, wp_self, wp_ite]
  refine ⟨fun h => hne h.2, fun _ => ?_⟩
  have := randomFitted_ok hω F ({ s.1 with v := [], vBase := [] }, s.2) hal hd hm hn
  rcases hs with rfl | ⟨n, rfl⟩
  · rw [wp_bind, wp_assign, wp_ite]
    exact ⟨fun h => absurd h hne, fun _ => this⟩
  · rw [wp_bind, wp_assign, wp_ite]
    exact ⟨fun h => absurd h hne, fun _ => this⟩
end BID
end Verif
