import Verif.Lemmas.Argmax
import Mathlib.Data.List.Sort
import Mathlib.Data.List.Range

/-!
# C50: k-means labels are renamed by decreasing cluster size

For every vector `d` of labels returned by k-means and every valid `argsort` (numpy's default one is not stable), the renaming of
`kmeans_cluster_size_biased` keeps the partition, uses exactly the labels `0 .. m-1` and gives them in order of non-increasing cluster size.
-/

set_option linter.unusedSectionVars false

namespace Verif.Mix

/-- A sorting permutation, ties in any order: what `np.argsort` promises. -/
def IsArgsort (f : List ℤ → List ℕ) : Prop :=
  ∀ l, (f l).Perm (List.range l.length) ∧ ((f l).map (fun i => (l[i]?).getD 0)).Pairwise (· ≤ ·)

theorem argsort_inverse {f : List ℤ → List ℕ} (hf : IsArgsort f) {p : List ℕ} {m : ℕ} (hp : p.Perm (List.range m)) :
    (f (p.map (fun i : ℕ => (i : ℤ)))).Perm (List.range m) ∧
    ∀ t < m, ∃ q, (f (p.map (fun i : ℕ => (i : ℤ))))[t]? = some q ∧ p[q]? = some t := by
  have hlen : p.length = m := by simpa using hp.length_eq
  obtain ⟨h1, h2⟩ := hf (p.map (fun i : ℕ => (i : ℤ)))
  simp only [List.length_map, hlen] at h1
  refine ⟨h1, fun t ht => ?_⟩
  have hperm : ((f (p.map (fun i : ℕ => (i : ℤ)))).map (fun i => ((p.map (fun i : ℕ => (i : ℤ)))[i]?).getD 0)).Perm ((List.range m).map (fun i : ℕ => (i : ℤ))) := by
    refine (h1.map _).trans ?_
    have : (List.range m).map (fun i => ((p.map (fun i : ℕ => (i : ℤ)))[i]?).getD 0) = p.map (fun i : ℕ => (i : ℤ)) := by
      refine List.ext_getElem (by simp [hlen]) fun i h1 h2 => ?_
      simp only [List.length_map] at h2
      simp [h2]
    rw [this]
    exact hp.map _
  have hs : ((List.range m).map (fun i : ℕ => (i : ℤ))).Pairwise (· ≤ ·) := by
    rw [List.pairwise_map]
    exact (List.pairwise_lt_range).imp (fun h => by omega)
  have heq := hperm.eq_of_pairwise (fun a b _ _ h h' => le_antisymm h h') h2 hs
  have hlt : t < (f (p.map (fun i : ℕ => (i : ℤ)))).length := by rw [h1.length_eq]; simpa using ht
  refine ⟨_, List.getElem?_eq_getElem hlt, ?_⟩
  have e := congrArg (fun l => l[t]?) heq
  simp only [List.getElem?_map, List.getElem?_eq_getElem hlt, Option.map_some, List.getElem?_range ht, Option.some.injEq] at e
  have hq : (f (p.map (fun i : ℕ => (i : ℤ))))[t] < p.length := by
    rw [hlen]; exact List.mem_range.1 (h1.mem_iff.1 (List.getElem_mem hlt))
  rw [List.getElem?_eq_getElem hq] at e ⊢
  simp only [Option.map_some, Option.getD_some] at e
  rw [Nat.cast_inj.1 e]

theorem count_map_injOn {g : ℕ → ℕ} {l : List ℕ} {x : ℕ} (hg : ∀ y ∈ l, g y = g x → y = x) : (l.map g).count (g x) = l.count x := by
  induction l with
  | nil => rfl
  | cons y ys ih =>
    rw [List.map_cons, List.count_cons, List.count_cons, ih (fun z hz => hg z (by simp [hz]))]
    by_cases h : y = x
    · subst h; simp
    · have : g y ≠ g x := fun hc => h (hg y (by simp) hc)
      simp [h, this]

theorem C50_relabel {f : List ℤ → List ℕ} (hf : IsArgsort f) (d : List ℕ) :
    (sizeBiased f d).length = d.length ∧
    (∀ i j a b : ℕ, (sizeBiased f d)[i]? = some a → (sizeBiased f d)[j]? = some b → (a = b ↔ d[i]? = d[j]?)) ∧
    (∃ m, ∀ l, l ∈ sizeBiased f d ↔ l < m) ∧
    ∀ a b, a ≤ b → (sizeBiased f d).count b ≤ (sizeBiased f d).count a := by
  let u := npUnique d
  let cnt := u.map (fun x => -(d.count x : ℤ))
  let p := f cnt
  let rank := f (p.map (fun i : ℕ => (i : ℤ)))
  let g : ℕ → ℕ := fun x => (rank[u.idxOf x]?).getD 0
  have hcl : cnt.length = u.length := by simp [cnt]
  obtain ⟨hp, hsort⟩ := hf cnt
  rw [hcl] at hp
  obtain ⟨hr, hinv⟩ := argsort_inverse hf hp
  have hr : sizeBiased f d = d.map g := by
    simp only [sizeBiased, npInverse, List.map_map]
    rfl
  -- the label of `x` is the place of the index of `x` in `p`
  have hg : ∀ x ∈ d, p[g x]? = some (u.idxOf x) := by
    intro x hx
    obtain ⟨q, h1, h2⟩ := hinv _ (List.idxOf_lt_length_iff.2 (mem_npUnique.2 hx))
    have : g x = q := by show (rank[u.idxOf x]?).getD 0 = q; rw [show rank[u.idxOf x]? = some q from h1]; rfl
    rw [this]; exact h2
  have hinj : ∀ x ∈ d, ∀ y ∈ d, g y = g x → y = x := by
    intro x hx y hy h
    have e := hg y hy
    rw [h, hg x hx] at e
    exact npInverse_inj hy hx (Option.some.inj e).symm
  have hplen : p.length = u.length := by simpa using hp.length_eq
  have hlt : ∀ x ∈ d, g x < u.length := by
    intro x hx
    by_contra hc
    have := hg x hx
    rw [List.getElem?_eq_none (by omega)] at this; cases this
  have hpnd : p.Nodup := hp.nodup_iff.2 List.nodup_range
  have hsurj : ∀ l < u.length, ∃ x ∈ d, g x = l := by
    intro l hl
    have hl' : l < p.length := by omega
    have hpl : p[l] < u.length := List.mem_range.1 (hp.mem_iff.1 (List.getElem_mem hl'))
    have hx : u[p[l]] ∈ d := mem_npUnique.1 (List.getElem_mem hpl)
    refine ⟨u[p[l]], hx, ?_⟩
    have e := hg _ hx
    rw [(npUnique_nodup d).idxOf_getElem _ hpl] at e
    obtain ⟨h1, h2⟩ := List.getElem?_eq_some_iff.1 e
    exact (List.Nodup.getElem_inj_iff hpnd).1 h2
  rw [hr]
  refine ⟨by simp, fun i j a b ha hb => ?_, ⟨u.length, fun l => ?_⟩, fun a b hab => ?_⟩
  · rw [List.getElem?_map] at ha hb
    obtain ⟨x, hx, rfl⟩ := Option.map_eq_some_iff.1 ha
    obtain ⟨y, hy, rfl⟩ := Option.map_eq_some_iff.1 hb
    rw [hx, hy, Option.some.injEq]
    exact ⟨hinj y (List.mem_of_getElem? hy) x (List.mem_of_getElem? hx), fun h => by rw [h]⟩
  · constructor
    · intro h
      obtain ⟨x, hx, rfl⟩ := List.mem_map.1 h
      exact hlt x hx
    · intro h
      obtain ⟨x, hx, rfl⟩ := hsurj l h
      exact List.mem_map_of_mem hx
  · rcases Nat.lt_or_ge b u.length with hb | hb
    · obtain ⟨x, hx, rfl⟩ := hsurj a (by omega)
      obtain ⟨y, hy, rfl⟩ := hsurj b hb
      rw [count_map_injOn (hinj x hx), count_map_injOn (hinj y hy)]
      rcases Nat.lt_or_ge (g x) (g y) with hlt' | hge
      · have hval : ∀ z ∈ d, ((p.map (fun i => (cnt[i]?).getD 0))[g z]?) = some (-(d.count z : ℤ)) := by
          intro z hz
          have hz' := List.idxOf_lt_length_iff.2 (mem_npUnique.2 hz)
          rw [List.getElem?_map, hg z hz, Option.map_some]
          simp only [cnt, List.getElem?_map, u, List.getElem?_eq_getElem hz', List.getElem_idxOf, Option.map_some, Option.getD_some]
        obtain ⟨k1, e1⟩ := List.getElem?_eq_some_iff.1 (hval x hx)
        obtain ⟨k2, e2⟩ := List.getElem?_eq_some_iff.1 (hval y hy)
        have := List.pairwise_iff_getElem.1 hsort _ _ k1 k2 hlt'
        rw [e1, e2] at this
        omega
      · have : g y = g x := by omega
        rw [hinj x hx y hy this]
    · rw [List.count_eq_zero.2]
      · exact Nat.zero_le _
      · intro hm
        obtain ⟨x, hx, rfl⟩ := List.mem_map.1 hm
        have := hlt x hx
        omega

/-! ### The hypotheses are met -/

/-- A sort by insertion is an `argsort`. -/
def argsortDemo (l : List ℤ) : List ℕ := (List.range l.length).insertionSort (fun i j => (l[i]?).getD 0 ≤ (l[j]?).getD 0)

theorem argsortDemo_spec : IsArgsort argsortDemo := by
  intro l
  refine ⟨List.perm_insertionSort _ _, ?_⟩
  rw [List.pairwise_map]
  haveI : Std.Total (fun i j : ℕ => (l[i]?).getD 0 ≤ (l[j]?).getD 0) := ⟨fun _ _ => le_total _ _⟩
  haveI : IsTrans ℕ (fun i j : ℕ => (l[i]?).getD 0 ≤ (l[j]?).getD 0) := ⟨fun _ _ _ => le_trans⟩
  exact List.pairwise_insertionSort _ _

example : sizeBiased argsortDemo [4, 1, 1, 7, 7, 7] = [2, 1, 1, 0, 0, 0] := by decide +kernel
end Verif.Mix
