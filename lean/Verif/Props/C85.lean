import Verif.Model.Spectrum
import Verif.Props.C76
import Mathlib.Analysis.InnerProductSpace.PiL2

/-!
# C85: `transfer_perm` moves nodal values to the node at the same place
-/

namespace Verif.Niles

open Verif.Core Verif.Common Verif.Spec

/-- The Euclidean distance. -/
noncomputable def edist2 {d : ℕ} (x y : Fin d → ℝ) : ℝ := Real.sqrt (∑ k, (x k - y k) ^ 2)

theorem edist2_eq {d : ℕ} (x y : Fin d → ℝ) :
    edist2 x y = dist (WithLp.toLp 2 x : EuclideanSpace ℝ (Fin d)) (WithLp.toLp 2 y) := by
  rw [EuclideanSpace.dist_eq]
  unfold edist2
  simp only [Real.dist_eq, sq_abs]

theorem edist2_triangle {d : ℕ} (x y z : Fin d → ℝ) : edist2 x z ≤ edist2 x y + edist2 z y := by
  simp only [edist2_eq]
  rw [dist_comm (WithLp.toLp 2 z)]
  exact dist_triangle _ _ _

theorem edist2_pos {d : ℕ} {x y : Fin d → ℝ} (h : x ≠ y) : 0 < edist2 x y := by
  rw [edist2_eq, dist_pos]
  intro h'
  exact h (by simpa using congrArg WithLp.ofLp h')

theorem nearest_eq {d : ℕ} {src : List (Fin d → ℝ)} {y : Fin d → ℝ} {s : ℕ} (hs : s < src.length)
    (hmin : ∀ i < src.length, i ≠ s → edist2 (src.getD s 0) y < edist2 (src.getD i 0) y) : nearest src y = some s := by
  unfold nearest
  cases h : (List.range src.length).argmin (fun i => sqDist (src.getD i 0) y) with
  | none =>
    rw [List.argmin_eq_none, List.range_eq_nil] at h
    omega
  | some i =>
    have hi : i < src.length := List.mem_range.1 (List.argmin_mem h)
    have hle : sqDist (src.getD i 0) y ≤ sqDist (src.getD s 0) y :=
      List.le_of_mem_argmin (List.mem_range.2 hs) h
    by_contra hne
    have hne' : i ≠ s := fun h' => hne (by rw [h'])
    have := hmin i hi hne'
    exact absurd (Real.sqrt_le_sqrt hle) (not_le.2 this)

theorem mapM_eq_map {α β : Type*} {f : α → Option β} {g : α → β} {l : List α} (h : ∀ x ∈ l, f x = some (g x)) :
    l.mapM f = some (l.map g) := by
  induction l with
  | nil => simp
  | cons a l ih =>
    rw [List.mapM_cons, h a List.mem_cons_self, ih fun x hx => h x (List.mem_cons_of_mem _ hx)]
    rfl

theorem mapM_getElem {α β : Type*} {f : α → Option β} {g : ℕ → β} {l : List α}
    (h : ∀ (t : ℕ) (ht : t < l.length), f l[t] = some (g t)) : l.mapM f = some ((List.range l.length).map g) := by
  induction l generalizing g with
  | nil => simp
  | cons a l ih =>
    have h0 := h 0 (by simp)
    have h1 := ih (g := fun t => g (t + 1)) (fun t ht => h (t + 1) (by simpa using ht))
    simp only [List.getElem_cons_zero] at h0
    rw [List.mapM_cons, h0, h1, List.length_cons, List.range_succ_eq_map, List.map_cons, List.map_map]
    rfl

/-- C85: when target node `t` is within `δ` of source node `σ t` (by rounding, say) and different source nodes are more
than `2 δ` apart, `transfer_perm` finds `σ`, however it breaks ties. -/
theorem C85_transfer {d : ℕ} {src tgt : List (Fin d → ℝ)} {σ : ℕ → ℕ} {δ : ℝ}
    (hσ : ∀ (t : ℕ) (ht : t < tgt.length), ∃ hs : σ t < src.length, edist2 src[σ t] tgt[t] ≤ δ)
    (hsep : ∀ (i j : ℕ) (hi : i < src.length) (hj : j < src.length), i ≠ j → 2 * δ < edist2 src[i] src[j]) :
    transferPerm src tgt = some ((List.range tgt.length).map σ) := by
  unfold transferPerm
  refine mapM_getElem fun t ht => ?_
  obtain ⟨hs, hd⟩ := hσ t ht
  refine nearest_eq hs fun i hi hne => ?_
  have e1 : src.getD (σ t) 0 = src[σ t] := by simp [List.getD_eq_getElem?_getD, hs]
  have e2 : src.getD i 0 = src[i] := by simp [List.getD_eq_getElem?_getD, hi]
  rw [e1, e2]
  have h1 := hsep i (σ t) hi hs hne
  have h2 := edist2_triangle src[i] tgt[t] src[σ t]
  linarith

theorem gridOffset_nc {p : ℕ} (hp : 1 ≤ p) (g : ℕ) : gridOffset (ncNode (K := ℝ) (p + 1)) g = (g : ℝ) / p := by
  have hp' : (p : ℝ) ≠ 0 := by exact_mod_cast (by omega : p ≠ 0)
  have hmod : g % p < p + 1 := (Nat.mod_lt g hp).trans (by omega)
  unfold gridOffset at0
  rw [dif_pos hmod]
  unfold ncNode
  simp only [Nat.add_sub_cancel]
  have hg : (p : ℝ) * (g / p : ℕ) + (g % p : ℕ) = g := by exact_mod_cast Nat.div_add_mod g p
  field_simp
  linarith

/-- C85 for the meshes of `train_and_evaluate` (train.py 617-628), in any dimension: values of a function on the nodes of
the uniformly refined mesh, taken in the order of `transfer_perm`, are its values at the grid points in lexicographic
order; every node is used once. -/
theorem C85_uniform {n p d : ℕ} (hn : 1 ≤ n) (hp : 1 ≤ p) (hd : 1 ≤ d) (per : List ℕ) :
    ∃ r perm, refinePremesh (cubePremesh n d (0 : ℝ) 1 per) (ncNode (K := ℝ) (p + 1)) = .ok r ∧
      transferPerm r.nodeCoords (cubePremesh (n * p) d (0 : ℝ) 1 []).nodeCoords = some perm ∧
      perm.length = (n * p + 1) ^ d ∧ perm.Perm (List.range r.nodeCoords.length) ∧
      ∀ (U : (Fin d → ℝ) → ℝ) (u : ℕ → ℝ), (∀ (v : ℕ) (hv : v < r.nodeCoords.length), u v = U r.nodeCoords[v]) →
        ∀ t < (n * p + 1) ^ d, (perm.map u)[t]? = some (U fun k => (digit (n * p + 1) d k t : ℝ) / (n * p : ℕ)) := by
  obtain ⟨r, hr, -, hlen, hnodup, pos, hO, -⟩ := C76_refined_grid hn hd (ncNode_elementNodes (K := ℝ) hp) zero_ne_one per
  have hn' : (n : ℝ) ≠ 0 := by exact_mod_cast (by omega : n ≠ 0)
  have hp' : (p : ℝ) ≠ 0 := by exact_mod_cast (by omega : p ≠ 0)
  set N := (n * p + 1) ^ d with hN
  set tgt := (cubePremesh (n * p) d (0 : ℝ) 1 []).nodeCoords with htgt
  obtain ⟨htl, htc⟩ := C22_nodes (n * p) d (0 : ℝ) 1 []
  have htl' : tgt.length = N := by
    rw [htgt]; unfold cubePremesh; simp only [List.length_map, htl, hN]
  have htc' : ∀ (t : ℕ) (ht : t < tgt.length), tgt[t] = fun k : Fin d => (digit (n * p + 1) d k t : ℝ) / (n * p : ℕ) := by
    intro t ht
    have h1 : tgt[t]? = some (toVec d ((digits (n * p + 1) d t).map (fun i : ℕ => (0 : ℝ) + (i : ℝ) * ((1 - 0) / ((n * p : ℕ) : ℝ))))) := by
      rw [htgt]
      unfold cubePremesh
      rw [List.getElem?_map, htc t (by rw [htl'] at ht; exact ht), Option.map_some]
    rw [List.getElem?_eq_getElem ht, Option.some.injEq] at h1
    rw [h1]
    funext k
    unfold toVec
    rw [List.getD_eq_getElem?_getD, List.getElem?_map]
    simp [digits, digit, div_eq_mul_inv]
  -- the node of the refined mesh at grid point `t`
  have hex : ∀ t, ∃ v, t < N → v < r.nodeCoords.length ∧ pos v = t := by
    intro t
    by_cases ht : t < N
    · obtain ⟨v, hv, hvt⟩ := hO.bij.surjOn (show t ∈ Set.Iio ((n * p + 1) ^ d) from ht)
      exact ⟨v, fun _ => ⟨hv, hvt⟩⟩
    · exact ⟨0, fun h => absurd h ht⟩
  choose σ hσ using hex
  have hcoord : ∀ (v : ℕ) (hv : v < r.nodeCoords.length), r.nodeCoords[v] =
      fun k : Fin d => (digit (n * p + 1) d k (pos v) : ℝ) / (n * p : ℕ) := by
    intro v hv
    have := hO.coords v hv
    rw [List.getElem?_eq_getElem hv, Option.some.injEq] at this
    rw [this]
    funext k
    rw [gridOffset_nc hp]
    push_cast
    field_simp
    ring
  have hsame : ∀ (t : ℕ) (ht : t < N), r.nodeCoords[σ t]'(hσ t ht).1 =
      fun k : Fin d => (digit (n * p + 1) d k t : ℝ) / (n * p : ℕ) := by
    intro t ht
    rw [hcoord _ (hσ t ht).1, (hσ t ht).2]
  have hperm : transferPerm r.nodeCoords tgt = some ((List.range tgt.length).map σ) := by
    refine C85_transfer (δ := 0) (fun t ht => ⟨(hσ t (htl' ▸ ht)).1, ?_⟩) (fun i j hi hj hij => ?_)
    · rw [hsame t (htl' ▸ ht), htc' t ht]
      simp [edist2]
    · rw [mul_zero]
      exact edist2_pos fun h => hij ((List.Nodup.getElem_inj_iff hnodup).1 h)
  refine ⟨r, (List.range tgt.length).map σ, hr, hperm, by simp [htl'], ?_, ?_⟩
  · rw [htl']
    have hinj : ((List.range N).map σ).Nodup := by
      refine List.Nodup.map_on ?_ List.nodup_range
      intro s hs t ht hst
      rw [List.mem_range] at hs ht
      rw [← (hσ s hs).2, ← (hσ t ht).2, hst]
    have hsub : (List.range N).map σ ⊆ List.range r.nodeCoords.length := by
      intro v hv
      obtain ⟨t, ht, rfl⟩ := List.mem_map.1 hv
      exact List.mem_range.2 (hσ t (List.mem_range.1 ht)).1
    exact (hinj.subperm hsub).perm_of_length_le (by simp [hlen])
  · intro U u hu t ht
    rw [List.map_map, List.getElem?_map, htl', List.getElem?_range ht, Option.map_some, Function.comp_apply,
      hu _ (hσ t ht).1, hsame t ht]

/-- The default configuration: 12 elements of order 4 per direction. -/
example : ∃ r perm, refinePremesh (cubePremesh 12 2 (0 : ℝ) 1 [0, 1]) (ncNode (K := ℝ) (4 + 1)) = .ok r ∧
    transferPerm r.nodeCoords (cubePremesh 48 2 (0 : ℝ) 1 []).nodeCoords = some perm ∧ perm.length = 49 ^ 2 := by
  obtain ⟨r, perm, h1, h2, h3, -⟩ := C85_uniform (n := 12) (p := 4) (d := 2) (by norm_num) (by norm_num) (by norm_num) [0, 1]
  exact ⟨r, perm, h1, h2, h3⟩

/-- A rounded coordinate. -/
example : transferPerm [![(0 : ℝ)], ![1]] [![1.001], ![-0.002]] = some [1, 0] := by
  have h := C85_transfer (src := [![(0 : ℝ)], ![1]]) (tgt := [![1.001], ![-0.002]]) (σ := fun t => 1 - t) (δ := 0.1) ?_ ?_
  · simpa [List.range_succ] using h
  · intro t ht
    simp only [List.length_cons, List.length_nil] at ht
    have : t = 0 ∨ t = 1 := by omega
    rcases this with rfl | rfl
    · refine ⟨by simp, ?_⟩
      simp only [edist2, Finset.univ_unique, Finset.sum_singleton]
      rw [Real.sqrt_le_left (by norm_num)]
      norm_num
    · refine ⟨by simp, ?_⟩
      simp only [edist2, Finset.univ_unique, Finset.sum_singleton]
      rw [Real.sqrt_le_left (by norm_num)]
      change ((0 : ℝ) - (-0.002)) ^ 2 ≤ 0.1 ^ 2
      norm_num
  · intro i j hi hj hij
    simp only [List.length_cons, List.length_nil] at hi hj
    have : (i = 0 ∧ j = 1) ∨ (i = 1 ∧ j = 0) := by omega
    rcases this with ⟨rfl, rfl⟩ | ⟨rfl, rfl⟩ <;> norm_num [edist2]

end Verif.Niles
