import Verif.Lemmas.Torus
import Verif.Props.C11_C16

/-! # C23: the periodic unit cube is a torus -/

namespace Verif.Common

open Verif.Spec Verif.Core

/-- The coordinates of a grid node on the torus: modulo `n` on the periodic axes. -/
def torusReduce (n : ℕ) (per : List ℕ) (m : ℕ) (I : List ℕ) : List ℕ :=
  I.mapIdx (fun j x => if j < m ∧ j ∈ per then x % n else x)

theorem torusReduce_getElem? (n : ℕ) (per : List ℕ) (m : ℕ) (I : List ℕ) (j : ℕ) :
    (torusReduce n per m I)[j]? = I[j]?.map (fun x => if j < m ∧ j ∈ per then x % n else x) := by
  unfold torusReduce
  rw [List.getElem?_mapIdx]

theorem torusReduce_length (n : ℕ) (per : List ℕ) (m : ℕ) (I : List ℕ) :
    (torusReduce n per m I).length = I.length := by simp [torusReduce]

theorem torusReduce_lt {n : ℕ} (hn : 1 ≤ n) (per : List ℕ) (m : ℕ) {I : List ℕ} (h : ∀ x ∈ I, x < n + 1) :
    ∀ x ∈ torusReduce n per m I, x < n + 1 := by
  intro x hx
  unfold torusReduce at hx
  rw [List.mem_mapIdx] at hx
  obtain ⟨j, hj, rfl⟩ := hx
  have := h _ (List.getElem_mem hj)
  split
  · exact lt_trans (Nat.mod_lt _ hn) (Nat.lt_succ_self n)
  · exact this

/-- A chain of links joins every node to its reduced coordinates. -/
theorem linked_torusReduce {n d : ℕ} (hn : 1 ≤ n) (per : List ℕ) {I : List ℕ} (hl : I.length = d)
    (h : ∀ x ∈ I, x < n + 1) (m : ℕ) (hm : m ≤ d) :
    Linked (intLinks (cubeLinks n d per)) (ravel (n + 1) I : ℕ)
      (ravel (n + 1) (torusReduce n per m I) : ℕ) := by
  induction m with
  | zero =>
    have : torusReduce n per 0 I = I := by
      refine List.ext_getElem? (fun j => ?_)
      rw [torusReduce_getElem?]
      simp
    rw [this]
    exact .refl _
  | succ m ih =>
    refine (ih (by omega)).trans _ _ _ ?_
    have hlm := torusReduce_length n per m I
    have hltm := torusReduce_lt hn per m h
    generalize hR : torusReduce n per m I = R at hlm hltm
    have hmR : m < R.length := by omega
    have hnext : torusReduce n per (m + 1) I = if m ∈ per then R.set m (R[m] % n) else R := by
      refine List.ext_getElem? (fun j => ?_)
      have hRj : ∀ j, R[j]? = I[j]?.map (fun x => if j < m ∧ j ∈ per then x % n else x) := by
        intro j; rw [← hR, torusReduce_getElem?]
      rw [torusReduce_getElem?]
      by_cases hj : j = m
      · subst hj
        have hRm := hRj j
        rw [List.getElem?_eq_getElem hmR] at hRm
        have hI : I[j]? = some R[j] := by
          cases hIj : I[j]? with
          | none => rw [hIj] at hRm; simp at hRm
          | some x => rw [hIj] at hRm; simpa using hRm.symm
        rw [hI]
        by_cases hp : j ∈ per
        · simp [hp, List.getElem?_set_self hmR]
        · simp [hp, List.getElem?_eq_getElem hmR]
      · have : (if m ∈ per then R.set m (R[m] % n) else R)[j]? = R[j]? := by
          split
          · rw [List.getElem?_set_ne (fun hc => hj hc.symm)]
          · rfl
        rw [this, hRj]
        have hiff : (j < m + 1 ∧ j ∈ per) ↔ (j < m ∧ j ∈ per) := by
          constructor
          · rintro ⟨a, b⟩; exact ⟨by omega, b⟩
          · rintro ⟨a, b⟩; exact ⟨by omega, b⟩
        simp only [hiff]
    rw [hnext]
    split
    · rename_i hp
      have hx := hltm _ (List.getElem_mem hmR)
      by_cases hxn : R[m] = n
      · apply Relation.EqvGen.symm
        apply Relation.EqvGen.rel
        rw [linkPair_cube hn]
        refine ⟨m, by omega, hp, R.set m 0, by rw [List.length_set]; omega, ?_, ?_, ?_, ?_⟩
        · intro z hz
          rcases List.mem_or_eq_of_mem_set hz with hz | hz
          · exact hltm z hz
          · omega
        · rw [List.getElem?_set_self hmR]
        · rw [hxn, Nat.mod_self]
        · rw [List.set_set, ← hxn, List.set_getElem_self]
      · rw [Nat.mod_eq_of_lt (by omega), List.set_getElem_self]
        exact .refl _
    · exact .refl _

theorem torusReduce_linkPair {n d : ℕ} (hn : 1 ≤ n) (per : List ℕ) {x y : ℤ}
    (h : LinkPair (intLinks (cubeLinks n d per)) x y) :
    torusReduce n per d (digits (n + 1) d x.toNat) = torusReduce n per d (digits (n + 1) d y.toNat) := by
  rw [linkPair_cube hn] at h
  obtain ⟨a, ha, hp, I, hl, hlt, h0, rfl, rfl⟩ := h
  have h2 : ∀ z ∈ I.set a n, z < n + 1 := by
    intro z hz
    rcases List.mem_or_eq_of_mem_set hz with hz | hz
    · exact hlt z hz
    · omega
  rw [Int.toNat_natCast, Int.toNat_natCast]
  have e1 := digits_ravel hlt
  have e2 := digits_ravel h2
  rw [hl] at e1
  rw [List.length_set, hl] at e2
  rw [e1, e2]
  refine List.ext_getElem? (fun j => ?_)
  rw [torusReduce_getElem?, torusReduce_getElem?]
  by_cases hj : j = a
  · subst hj
    rw [h0, List.getElem?_set_self (by omega)]
    simp [ha, hp]
  · rw [List.getElem?_set_ne (fun hc => hj hc.symm)]

/-- The identification of the mesh's periodic links, as passed to `get_unique_node_indices`. -/
def cubeUnique {K : Type*} (mesh : CubeMesh K) (k : ℕ) : ℤ :=
  uniqueNodeIndex (mesh.periodicLinks.map intLinks) k

theorem cubeUnique_iff_linked {K : Type*} [Field K] (n d : ℕ) (lo hi : K) (per : List ℕ) (k l : ℕ) :
    cubeUnique (unitCubeMesh n d lo hi per) k = cubeUnique (unitCubeMesh n d lo hi per) l ↔
      Linked (intLinks (cubeLinks n d per)) k l := by
  unfold cubeUnique unitCubeMesh
  by_cases h : (cubeLinks n d per).length = 0
  · simp only [h, if_true]
    have hnil : cubeLinks n d per = [] := List.eq_nil_of_length_eq_zero h
    rw [hnil]
    change (k : ℤ) = (l : ℤ) ↔ _
    constructor
    · intro he; rw [he]; exact .refl _
    · intro he
      unfold Linked at he
      generalize (k : ℤ) = x at he ⊢
      generalize (l : ℤ) = y at he ⊢
      induction he with
      | rel x y hxy =>
        obtain ⟨l, hl, _⟩ := hxy
        simp [intLinks] at hl
      | refl x => rfl
      | symm x y _ ih => exact ih.symm
      | trans x y z _ _ ih1 ih2 => exact ih1.trans ih2
  · simp only [h, if_false]
    exact C12_same_iff_linked _ _ _

theorem cubeUnique_iff_reduce {K : Type*} [Field K] {n d : ℕ} (hn : 1 ≤ n) (lo hi : K) (per : List ℕ)
    {k l : ℕ} (hk : k < (n + 1) ^ d) (hl : l < (n + 1) ^ d) :
    cubeUnique (unitCubeMesh n d lo hi per) k = cubeUnique (unitCubeMesh n d lo hi per) l ↔
      torusReduce n per d (digits (n + 1) d k) = torusReduce n per d (digits (n + 1) d l) := by
  rw [cubeUnique_iff_linked]
  constructor
  · intro h
    have key : ∀ x y : ℤ, Linked (intLinks (cubeLinks n d per)) x y →
        torusReduce n per d (digits (n + 1) d x.toNat) = torusReduce n per d (digits (n + 1) d y.toNat) := by
      intro x y hxy
      unfold Linked at hxy
      induction hxy with
      | rel x y hxy => exact torusReduce_linkPair hn per hxy
      | refl x => rfl
      | symm x y _ ih => exact ih.symm
      | trans x y z _ _ ih1 ih2 => exact ih1.trans ih2
    simpa using key _ _ h
  · intro h
    have h1 := linked_torusReduce hn per (digits_length (n + 1) d k)
      (fun x hx => mem_digits_lt (Nat.succ_pos n) hx) d le_rfl
    have h2 := linked_torusReduce hn per (digits_length (n + 1) d l)
      (fun x hx => mem_digits_lt (Nat.succ_pos n) hx) d le_rfl
    rw [ravel_digits hk] at h1
    rw [ravel_digits hl, ← h] at h2
    exact h1.trans _ _ _ (h2.symm _ _)

/-- Two grid nodes are the same degree of freedom iff their multi indices agree modulo `n` on the periodic axes
and exactly on the others. -/
theorem C23_torus {K : Type*} [Field K] {n d : ℕ} (hn : 1 ≤ n) (lo hi : K) (per : List ℕ)
    {k l : ℕ} (hk : k < (n + 1) ^ d) (hl : l < (n + 1) ^ d) :
    cubeUnique (unitCubeMesh n d lo hi per) k = cubeUnique (unitCubeMesh n d lo hi per) l ↔
      ∀ j < d, (j ∈ per → digit (n + 1) d j k % n = digit (n + 1) d j l % n) ∧
        (j ∉ per → digit (n + 1) d j k = digit (n + 1) d j l) := by
  rw [cubeUnique_iff_reduce hn lo hi per hk hl]
  have hget : ∀ (e j : ℕ), j < d → (torusReduce n per d (digits (n + 1) d e))[j]? =
      some (if j ∈ per then digit (n + 1) d j e % n else digit (n + 1) d j e) := by
    intro e j hj
    rw [torusReduce_getElem?]
    unfold digits
    rw [List.getElem?_map, List.getElem?_range hj]
    simp [hj]
  constructor
  · intro h j hj
    have h1 := hget k j hj
    rw [h, hget l j hj, Option.some.injEq] at h1
    constructor
    · intro hp; rw [if_pos hp, if_pos hp] at h1; exact h1.symm
    · intro hp; rw [if_neg hp, if_neg hp] at h1; exact h1.symm
  · intro h
    refine List.ext_getElem? (fun j => ?_)
    by_cases hj : j < d
    · rw [hget k j hj, hget l j hj]
      by_cases hp : j ∈ per
      · rw [if_pos hp, if_pos hp, (h j hj).1 hp]
      · rw [if_neg hp, if_neg hp, (h j hj).2 hp]
    · rw [List.getElem?_eq_none (by rw [torusReduce_length, digits_length]; omega),
        List.getElem?_eq_none (by rw [torusReduce_length, digits_length]; omega)]

/-- The factors of the reduced grid. -/
def torusAxes (n d : ℕ) (per : List ℕ) : List (List ℕ) :=
  (List.range d).map (fun j => List.range (if j ∈ per then n else n + 1))

theorem image_torusReduce {n d : ℕ} (hn : 1 ≤ n) (per : List ℕ) :
    (Finset.range ((n + 1) ^ d)).image (fun k => torusReduce n per d (digits (n + 1) d k)) =
      (cartesian (torusAxes n d per)).toFinset := by
  ext t
  rw [Finset.mem_image, List.mem_toFinset, mem_cartesian, List.forall₂_iff_get]
  constructor
  · rintro ⟨k, _, rfl⟩
    refine ⟨by simp [torusReduce_length, digits_length, torusAxes], fun j hj1 hj2 => ?_⟩
    have hj : j < d := by simpa [torusReduce_length, digits_length] using hj1
    simp only [List.get_eq_getElem, torusReduce, torusAxes, List.getElem_mapIdx, List.getElem_map,
      List.getElem_range, List.mem_range]
    have hx : (digits (n + 1) d k)[j]'(by rw [digits_length]; exact hj) < n + 1 :=
      mem_digits_lt (Nat.succ_pos n) (List.getElem_mem _)
    by_cases hp : j ∈ per
    · simp only [hj, hp, and_self, if_true]
      exact Nat.mod_lt _ hn
    · simp only [hp, and_false, if_false]
      exact hx
  · rintro ⟨hlen, h⟩
    have hlen' : t.length = d := by simpa [torusAxes] using hlen
    have hb : ∀ j (hj : j < t.length), t[j] < if j ∈ per then n else n + 1 := by
      intro j hj
      have := h j hj (by simp [torusAxes]; omega)
      simpa [torusAxes] using this
    have hlt : ∀ x ∈ t, x < n + 1 := by
      intro x hx
      obtain ⟨j, hj, rfl⟩ := List.getElem_of_mem hx
      have := hb j hj
      split at this <;> omega
    refine ⟨ravel (n + 1) t, Finset.mem_range.mpr ?_, ?_⟩
    · have := ravel_lt hlt
      rwa [hlen'] at this
    · have e := digits_ravel hlt
      rw [hlen'] at e
      rw [e]
      refine List.ext_getElem? (fun j => ?_)
      rw [torusReduce_getElem?]
      by_cases hj : j < t.length
      · rw [List.getElem?_eq_getElem hj, Option.map_some]
        have := hb j hj
        by_cases hp : j ∈ per
        · rw [if_pos hp] at this
          rw [if_pos ⟨by omega, hp⟩, Nat.mod_eq_of_lt this]
        · rw [if_neg (fun hc => hp hc.2)]
      · rw [List.getElem?_eq_none (by omega)]; rfl

theorem torusAxes_prod (n d : ℕ) (per : List ℕ) :
    ((torusAxes n d per).map List.length).prod =
      n ^ ((List.range d).countP (· ∈ per)) * (n + 1) ^ ((List.range d).countP (· ∉ per)) := by
  unfold torusAxes
  induction d with
  | zero => rfl
  | succ d ih =>
    rw [List.range_succ, List.map_append, List.map_append, List.prod_append, ih, List.countP_append,
      List.countP_append]
    by_cases hp : d ∈ per
    · simp [hp, pow_succ]; ring
    · simp [hp, pow_succ]; ring

/-- The number of degrees of freedom that remain. -/
theorem C23_count {K : Type*} [Field K] {n d : ℕ} (hn : 1 ≤ n) (lo hi : K) (per : List ℕ) :
    ((Finset.range ((n + 1) ^ d)).image (cubeUnique (unitCubeMesh n d lo hi per))).card =
      n ^ ((List.range d).countP (· ∈ per)) * (n + 1) ^ ((List.range d).countP (· ∉ per)) := by
  have hcard : ((Finset.range ((n + 1) ^ d)).image (cubeUnique (unitCubeMesh n d lo hi per))).card =
      ((Finset.range ((n + 1) ^ d)).image (fun k => torusReduce n per d (digits (n + 1) d k))).card := by
    generalize hs : Finset.range ((n + 1) ^ d) = s
    have hiff : ∀ k ∈ s, ∀ l ∈ s, (cubeUnique (unitCubeMesh n d lo hi per) k =
        cubeUnique (unitCubeMesh n d lo hi per) l ↔
        torusReduce n per d (digits (n + 1) d k) = torusReduce n per d (digits (n + 1) d l)) := by
      intro k hk l hl
      rw [← hs, Finset.mem_range] at hk hl
      exact cubeUnique_iff_reduce hn lo hi per hk hl
    clear hs
    induction s using Finset.induction_on with
    | empty => simp
    | insert a s ha ih =>
      have ih' := ih (fun k hk l hl => hiff k (Finset.mem_insert_of_mem hk) l (Finset.mem_insert_of_mem hl))
      rw [Finset.image_insert, Finset.image_insert]
      by_cases hc : cubeUnique (unitCubeMesh n d lo hi per) a ∈
          s.image (cubeUnique (unitCubeMesh n d lo hi per))
      · have hc2 : torusReduce n per d (digits (n + 1) d a) ∈
            s.image (fun k => torusReduce n per d (digits (n + 1) d k)) := by
          obtain ⟨k, hk, hka⟩ := Finset.mem_image.mp hc
          exact Finset.mem_image.mpr ⟨k, hk,
            (hiff k (Finset.mem_insert_of_mem hk) a (Finset.mem_insert_self a s)).mp hka⟩
        rw [Finset.insert_eq_of_mem hc, Finset.insert_eq_of_mem hc2, ih']
      · have hc2 : torusReduce n per d (digits (n + 1) d a) ∉
            s.image (fun k => torusReduce n per d (digits (n + 1) d k)) := by
          intro hc2
          obtain ⟨k, hk, hka⟩ := Finset.mem_image.mp hc2
          exact hc (Finset.mem_image.mpr ⟨k, hk,
            (hiff k (Finset.mem_insert_of_mem hk) a (Finset.mem_insert_self a s)).mpr hka⟩)
        rw [Finset.card_insert_of_notMem hc, Finset.card_insert_of_notMem hc2, ih']
  rw [hcard, image_torusReduce hn, List.card_toFinset, List.Nodup.dedup, cartesian_length, torusAxes_prod]
  apply cartesian_nodup
  intro l hl
  unfold torusAxes at hl
  obtain ⟨j, _, rfl⟩ := List.mem_map.mp hl
  exact List.nodup_range

/-- A fully periodic square with two elements per side: 9 grid nodes, 4 degrees of freedom; the four corners
are one. -/
example : (1 : ℕ) ≤ 2 ∧ (8 : ℕ) < (2 + 1) ^ 2 ∧
    cubeUnique (unitCubeMesh 2 2 (0 : ℚ) 1 [0, 1]) 0 = cubeUnique (unitCubeMesh 2 2 (0 : ℚ) 1 [0, 1]) 8 ∧
    cubeUnique (unitCubeMesh 2 2 (0 : ℚ) 1 [0, 1]) 0 ≠ cubeUnique (unitCubeMesh 2 2 (0 : ℚ) 1 [0, 1]) 1 := by
  refine ⟨by decide, by decide, ?_, ?_⟩
  · rw [C23_torus (by decide) 0 1 [0, 1] (by decide) (by decide)]; decide
  · rw [Ne, C23_torus (by decide) 0 1 [0, 1] (by decide) (by decide)]; decide

end Verif.Common
