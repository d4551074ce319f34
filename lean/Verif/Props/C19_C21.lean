import Verif.Model.Premesh
import Verif.Spec.PremeshSpec
import Verif.Props.C11_C16
import Verif.Props.C17_C18

/-!
# C19 - C21: `Premesh.finalize` and `Premesh.create`
-/

namespace Verif.Core

open Verif.Spec

/-! ### Helper lemmas -/

theorem mem_getD_nil {α : Type*} {l : List (List α)} {e : ℕ} {x : α} (h : x ∈ l.getD e []) :
    ∃ row ∈ l, x ∈ row := by
  rw [List.getD_eq_getElem?_getD] at h
  cases hr : l[e]? with
  | none => simp [hr] at h
  | some r => exact ⟨r, List.mem_of_getElem? hr, by simpa [hr] using h⟩

theorem gatherElements_append (elements : List (List ℤ)) (M : ℕ) (a b : List ℤ) :
    gatherElements elements M (a ++ b) = gatherElements elements M a ++ gatherElements elements M b := by
  simp [gatherElements]

theorem gatherElements_replicate (elements : List (List ℤ)) (M n : ℕ) :
    gatherElements elements M (List.replicate n (-1)) = List.replicate (n * M) (-1) := by
  induction n with
  | zero => simp [gatherElements]
  | succ n ih =>
    rw [List.replicate_succ', gatherElements_append, ih, Nat.add_mul, one_mul, List.replicate_add]
    congr 1
    simp [gatherElements, sentinel]

theorem gatherElements_ids (elements : List (List ℤ)) (M : ℕ) (ids : List ℕ)
    (h : ∀ e ∈ ids, e < elements.length) :
    gatherElements elements M (ids.map (fun i : ℕ => (i : ℤ))) =
      ids.flatMap (fun e => elements.getD e []) := by
  unfold gatherElements
  rw [List.flatMap_map]
  apply List.flatMap_congr
  intro e he
  rw [if_pos (by simp only [sentinel]; omega), readPos_natCast (h e he)]

/-- The flattened element array of a device: its elements, then padding. -/
theorem deviceRow {C : Type*} (pm : Premesh C) (M : ℕ) (parts : List ℕ) (hne : parts ≠ [])
    (hlen : parts.length = pm.elements.length) {p : ℕ}
    (hp : p < (groupByPartitions parts).length) :
    ∃ pad, ((groupByPartitions parts).map (gatherElements pm.elements M))[p]? =
      some (deviceNodes pm.elements parts p ++ List.replicate pad (-1)) := by
  obtain ⟨n, hn, _, width, _, _, hrow⟩ := C17_group_by_partitions parts hne
  rw [hn] at hp
  refine ⟨(width - parts.count p) * M, ?_⟩
  rw [List.getElem?_map, hrow p hp, Option.map_some, gatherElements_append, gatherElements_replicate,
    gatherElements_ids]
  · rfl
  · intro e he
    rw [List.mem_filter, List.mem_range] at he
    omega

/-! ### C19 -/

/-- For every partitioned premesh, periodic or not: if `finalize` returns, the flattened element array of
device `p` lists its elements in order, then padding, and the coordinates found through it are those of the
*representatives* of the nodes of the global elements. -/
theorem C19_representative_geometry_partial {C : Type*} (pm : Premesh C) (M : ℕ) (parts : List ℕ)
    (hne : parts ≠ []) (hlen : parts.length = pm.elements.length)
    (hreal : ∀ el ∈ pm.elements, ∀ x ∈ el, x ≠ -1)
    {mesh : DeviceMesh C} (hok : finalizePartitioned pm M parts = .ok mesh) {p : ℕ}
    (hp : p ∈ parts) :
    ∃ (coords : List C) (elems : List ℤ) (pad : ℕ), mesh.nodeCoords[p]? = some coords ∧
      mesh.elements[p]? = some (elems ++ List.replicate pad (-1)) ∧
      elems.length = (deviceNodes pm.elements parts p).length ∧
      ∀ (k : ℕ) (x : ℤ), (deviceNodes pm.elements parts p)[k]? = some x → ∃ s : ℕ, elems[k]? = some (s : ℤ) ∧
        coords[s]? = some (coordAt pm (uniqueNodeIndex pm.periodicLinks x)) := by
  have hpl : p < (groupByPartitions parts).length := by
    obtain ⟨n, hn, ⟨_, _, h⟩, _⟩ := C17_group_by_partitions parts hne
    rw [hn]; exact h p hp
  obtain ⟨pad, hrow⟩ := deviceRow pm M parts hne hlen hpl
  have hpE : p < ((groupByPartitions parts).map (gatherElements pm.elements M)).length := by
    rw [List.length_map]; exact hpl
  obtain ⟨_, _, _, hloc⟩ := C18_local_elements ((groupByPartitions parts).map
    (gatherElements pm.elements M))
  obtain ⟨real, padN, locals, h1, h2, _, _, h5, h6⟩ := hloc p hpE
  rw [List.getElem?_eq_getElem hpE, Option.some.injEq] at hrow
  unfold finalizePartitioned at hok
  simp only at hok
  split at hok
  · exact absurd hok (by simp)
  · rw [Except.ok.injEq] at hok
    subst hok
    simp only
    refine ⟨_, locals.take (deviceNodes pm.elements parts p).length, pad,
      by rw [List.getElem?_map, List.getElem?_map, h1]; rfl, ?_, ?_, ?_⟩
    · rw [h2, Option.some.injEq]
      have hl : locals.length = (deviceNodes pm.elements parts p).length + pad := by
        rw [h5, hrow]; simp
      refine List.ext_getElem? (fun k => ?_)
      by_cases hk : k < (deviceNodes pm.elements parts p).length
      · rw [List.getElem?_append_left (by rw [List.length_take]; omega), List.getElem?_take, if_pos hk]
      · rw [List.getElem?_append_right (by rw [List.length_take]; omega), List.length_take]
        by_cases hk2 : k < locals.length
        · have hk3 : k < (((groupByPartitions parts).map (gatherElements pm.elements M))[p]).length := by
            rw [← h5]; exact hk2
          have := (h6 k hk3).1 (by
            simp only [hrow]
            rw [List.getElem_append_right (by omega)]
            simp)
          rw [this, List.getElem?_replicate, if_pos (by omega)]
        · rw [List.getElem?_eq_none (by omega), List.getElem?_replicate, if_neg (by omega)]
    · rw [List.length_take, h5, hrow]; simp
    · intro k x hk
      have hkl : k < (deviceNodes pm.elements parts p).length := (List.getElem?_eq_some_iff.mp hk).1
      have hk3 : k < (((groupByPartitions parts).map (gatherElements pm.elements M))[p]).length := by
        rw [hrow]; simp only [List.length_append, List.length_replicate]; omega
      have hx : (((groupByPartitions parts).map (gatherElements pm.elements M))[p])[k] = x := by
        have : (((groupByPartitions parts).map (gatherElements pm.elements M))[p])[k]? = some x := by
          rw [hrow, List.getElem?_append_left hkl, hk]
        rw [List.getElem?_eq_getElem hk3] at this
        exact Option.some.inj this
      have hxne : x ≠ -1 := by
        have hmem : x ∈ deviceNodes pm.elements parts p := List.mem_of_getElem? hk
        unfold deviceNodes at hmem
        rw [List.mem_flatMap] at hmem
        obtain ⟨e, _, hxe⟩ := hmem
        obtain ⟨row, hr1, hr2⟩ := mem_getD_nil hxe
        exact hreal row hr1 x hr2
      obtain ⟨s, hs1, hs2, hs3⟩ := (h6 k hk3).2 (by rw [hx]; exact hxne)
      refine ⟨s, by rw [List.getElem?_take, if_pos hkl]; exact hs1, ?_⟩
      rw [List.getElem?_map, List.getElem?_map, hs3, hx]
      rfl

/-- Without periodic links `finalize` always returns, and every element keeps its coordinates. Missing from
the full claim: meshes with periodic links, for which it is false (`C19_violated`). -/
theorem C19_geometry_partial {C : Type*} (pm : Premesh C) (M : ℕ) (parts : List ℕ)
    (hne : parts ≠ []) (hlen : parts.length = pm.elements.length)
    (hreal : ∀ el ∈ pm.elements, ∀ x ∈ el, 0 ≤ x ∧ x < pm.numNodes)
    (hlinks : pm.periodicLinks = none) :
    ∃ mesh, finalizePartitioned pm M parts = .ok mesh ∧ ∀ p ∈ parts,
      ∃ (coords : List C) (elems : List ℤ) (pad : ℕ), mesh.nodeCoords[p]? = some coords ∧
        mesh.elements[p]? = some (elems ++ List.replicate pad (-1)) ∧
        elems.length = (deviceNodes pm.elements parts p).length ∧
        ∀ (k : ℕ) (x : ℤ), (deviceNodes pm.elements parts p)[k]? = some x → ∃ s : ℕ, elems[k]? = some (s : ℤ) ∧
          coords[s]? = some (pm.nodeCoords x.toNat) := by
  have hreal' : ∀ el ∈ pm.elements, ∀ x ∈ el, x ≠ -1 := fun el hel x hx => by
    have := hreal el hel x hx; omega
  have hmesh : ∃ mesh, finalizePartitioned pm M parts = .ok mesh := by
    unfold finalizePartitioned
    have hid : uniqueNodeIndex (none : Option (List (List ℤ × List ℤ))) = id := rfl
    simp only [hlinks, hid, List.map_id_fun, List.map_id_fun', id_eq]
    set nl := getLocalElements ((groupByPartitions parts).map (gatherElements pm.elements M)) with hnl
    have hnr : NoRepeats nl.1.length ((nl.1.map List.length).foldl max 0)
        (fun p i => (nl.1.getD p []).getD i sentinel) := by
      intro p hp i _ j _ he hs
      obtain ⟨hl1, _, _, hloc⟩ := C18_local_elements ((groupByPartitions parts).map
        (gatherElements pm.elements M))
      obtain ⟨real, pad, _, h1, _, h3, _⟩ := hloc p (by rw [← hl1]; exact hp)
      have hrow : nl.1.getD p [] = real ++ List.replicate pad (-1) := by
        rw [List.getD_eq_getElem?_getD, hnl, h1]; rfl
      simp only [hrow] at he hs
      have hlt : ∀ m, (real ++ List.replicate pad (-1)).getD m sentinel ≠ -1 → m < real.length := by
        intro m hm
        by_contra hge
        apply hm
        rw [List.getD_eq_getElem?_getD, List.getElem?_append_right (by omega), List.getElem?_replicate]
        split <;> rfl
      have hi := hlt i hs
      have hj := hlt j (he ▸ hs)
      have hget : ∀ m (hm : m < real.length), (real ++ List.replicate pad (-1)).getD m sentinel = real[m] := by
        intro m hm
        rw [List.getD_eq_getElem?_getD, List.getElem?_append_left hm, List.getElem?_eq_getElem hm]
        rfl
      rw [hget i hi, hget j hj] at he
      have hnd : real.Nodup := h3.imp (fun h => ne_of_lt h)
      exact (List.Nodup.getElem_inj_iff hnd).mp he
    obtain ⟨rows, hr⟩ := (C15_intra_partition_detected _ _ _).2.mpr hnr
    rw [hr]
    exact ⟨_, rfl⟩
  obtain ⟨mesh, hm⟩ := hmesh
  refine ⟨mesh, hm, fun p hp => ?_⟩
  obtain ⟨coords, elems, pad, h1, h2, h3, h4⟩ :=
    C19_representative_geometry_partial pm M parts hne hlen hreal' hm hp
  refine ⟨coords, elems, pad, h1, h2, h3, fun k x hk => ?_⟩
  obtain ⟨s, hs1, hs2⟩ := h4 k x hk
  refine ⟨s, hs1, ?_⟩
  rw [hs2, hlinks]
  have hmem : x ∈ deviceNodes pm.elements parts p := List.mem_of_getElem? hk
  unfold deviceNodes at hmem
  rw [List.mem_flatMap] at hmem
  obtain ⟨e, _, hxe⟩ := hmem
  obtain ⟨row, hr1, hr2⟩ := mem_getD_nil hxe
  have := hreal row hr1 x hr2
  simp only [uniqueNodeIndex, coordAt]
  rw [readPos_of_range this.1 this.2]

/-- Two intervals `[0, 1]`, `[1, 2]` with nodes at 0, 10, 20, one per device. -/
def twoIntervals (links : Option (List (List ℤ × List ℤ))) : Premesh ℤ where
  numNodes := 3
  nodeCoords := fun k => 10 * k
  elements := [[0, 1], [1, 2]]
  physicalGroups := []
  periodicLinks := links

example : ∀ el ∈ (twoIntervals none).elements, ∀ x ∈ el, 0 ≤ x ∧ x < (twoIntervals none).numNodes := by
  decide

/-- With the end nodes linked, the second device gets the element `[1, 2]` with coordinates 10 and **0**
instead of 10 and 20: the geometry of a partitioned periodic mesh is wrong. -/
theorem C19_violated :
    ∃ (pm : Premesh ℤ) (parts : List ℕ) (mesh : DeviceMesh ℤ),
      finalizePartitioned pm 2 parts = .ok mesh ∧ parts.length = pm.elements.length ∧
      (∀ el ∈ pm.elements, ∀ x ∈ el, 0 ≤ x ∧ x < pm.numNodes) ∧
      deviceNodes pm.elements parts 1 = [1, 2] ∧
      mesh.elements[1]? = some [0, 1] ∧ mesh.nodeCoords[1]? = some [10, 0] ∧
      [1, 2].map (fun x : ℕ => pm.nodeCoords x) = [10, 20] := by
  have h : ∃ mesh, finalizePartitioned (twoIntervals (some [([0], [2])])) 2 [0, 1] = .ok mesh ∧
      mesh.elements[1]? = some [0, 1] ∧ mesh.nodeCoords[1]? = some [10, 0] := by
    unfold finalizePartitioned
    simp only
    have hnr : NoRepeats 2 2 (fun p i => (([[0, 1], [1, 0]] : List (List ℤ)).getD p []).getD i sentinel) := by
      intro p hp i hi j hj
      interval_cases p <;> interval_cases i <;> interval_cases j <;> simp
    obtain ⟨rows, hr⟩ := (C15_intra_partition_detected 2 2 _).2.mpr hnr
    have e1 : ((getLocalElements ((groupByPartitions [0, 1]).map
        (gatherElements (twoIntervals (some [([0], [2])])).elements 2))).1.map
        (fun row => row.map (uniqueNodeIndex (twoIntervals (some [([0], [2])])).periodicLinks))) =
        [[0, 1], [1, 0]] := by decide
    have e2 : (getLocalElements ((groupByPartitions [0, 1]).map
        (gatherElements (twoIntervals (some [([0], [2])])).elements 2))).2 = [[0, 1], [0, 1]] := by decide
    rw [e1, e2]
    have e3 : (([[0, 1], [1, 0]] : List (List ℤ)).map List.length).foldl max 0 = 2 := by decide
    have e4 : ([[0, 1], [1, 0]] : List (List ℤ)).length = 2 := by decide
    rw [e3, e4, hr]
    exact ⟨_, rfl, rfl, rfl⟩
  obtain ⟨mesh, h1, h2, h3⟩ := h
  exact ⟨_, _, mesh, h1, by decide, by decide, by decide, h2, h3, by decide⟩

/-! ### C20 -/

/-- The mask of a group on an unpartitioned mesh at node `k`. -/
theorem C20_mask_representative {C : Type*} (pm : Premesh C) (g : String) (nodes : List ℤ)
    (hg : (g, nodes) ∈ pm.physicalGroups) :
    ∃ mask, (g, mask) ∈ (finalizeUnpartitioned pm).physicalMasks ∧
      ∀ k : ℕ, mask k = true ↔ uniqueNodeIndex pm.periodicLinks k ∈ nodes := by
  refine ⟨fun k => maskAt nodes (uniqueNodeIndex pm.periodicLinks k),
    List.mem_map.mpr ⟨(g, nodes), hg, rfl⟩, fun k => ?_⟩
  simp [maskAt]

/-- Nodes of the group are marked, when the representative of a node of the group lies in the group (always
without periodic links); a marked node is linked to a node of the group. Missing from the full claim: groups
that contain a node but not its representative, for which it is false (`C20_violated`). -/
theorem C20_masks_partial {C : Type*} (pm : Premesh C) (g : String) (nodes : List ℤ)
    (hg : (g, nodes) ∈ pm.physicalGroups) :
    ∃ mask, (g, mask) ∈ (finalizeUnpartitioned pm).physicalMasks ∧
      ((∀ x ∈ nodes, uniqueNodeIndex pm.periodicLinks x ∈ nodes) →
        ∀ k : ℕ, (k : ℤ) ∈ nodes → mask k = true) ∧
      (∀ k : ℕ, mask k = true → (k : ℤ) ∈ nodes ∨
        ∃ ls, pm.periodicLinks = some ls ∧ ∃ x ∈ nodes, Linked ls k x) := by
  obtain ⟨mask, hm, h⟩ := C20_mask_representative pm g nodes hg
  refine ⟨mask, hm, fun hc k hk => (h k).mpr (hc _ hk), fun k hk => ?_⟩
  have hk' := (h k).mp hk
  cases hl : pm.periodicLinks with
  | none => left; rw [hl] at hk'; exact hk'
  | some ls =>
    right
    rw [hl] at hk'
    exact ⟨ls, rfl, _, hk', (C12_least_linked ls k).1⟩

/-- The same for the masks of a partitioned mesh: slot by slot, the mask marks the node indices that are in
the group. -/
theorem C20_masks_partitioned {C : Type*} (pm : Premesh C) (M : ℕ) (parts : List ℕ) (g : String)
    (nodes : List ℤ) (hg : (g, nodes) ∈ pm.physicalGroups) {mesh : DeviceMesh C}
    (hok : finalizePartitioned pm M parts = .ok mesh) :
    ∃ mask : List (List Bool), (g, mask) ∈ mesh.physicalMasks ∧ mask.length = mesh.nodeIndices.length ∧
      ∀ (p i : ℕ) (x : ℤ), (mesh.nodeIndices[p]?.bind (fun row => row[i]?)) = some x →
        (mask[p]?.bind (fun row => row[i]?)) = some (decide (x ∈ nodes)) := by
  unfold finalizePartitioned at hok
  simp only at hok
  split at hok
  · exact absurd hok (by simp)
  · rw [Except.ok.injEq] at hok
    subst hok
    refine ⟨_, List.mem_map.mpr ⟨(g, nodes), hg, rfl⟩, by simp, fun p i x hx => ?_⟩
    simp only [List.getElem?_map] at hx ⊢
    cases hr : ((getLocalElements ((groupByPartitions parts).map
      (gatherElements pm.elements M))).1)[p]? with
    | none => rw [hr] at hx; simp at hx
    | some row =>
      rw [hr] at hx
      simp only [Option.map_some, Option.bind_some, List.getElem?_map] at hx ⊢
      cases hi : row[i]? with
      | none => rw [hi] at hx; simp at hx
      | some y =>
        rw [hi] at hx
        simp only [Option.map_some, Option.some.injEq] at hx ⊢
        rw [← hx]
        rfl

/-- A group made of the right end of a periodic interval: its only node is not marked. -/
theorem C20_violated :
    ∃ (pm : Premesh ℤ) (mask : ℕ → Bool), pm.physicalGroups = [("right", [2])] ∧
      (finalizeUnpartitioned pm).physicalMasks = [("right", mask)] ∧ mask 2 = false :=
  ⟨{ twoIntervals (some [([0], [2])]) with physicalGroups := [("right", [2])] }, _, rfl, rfl, by decide⟩

example : ∀ x ∈ ([0, 2] : List ℤ), uniqueNodeIndex (some [([0], [2])]) x ∈ ([0, 2] : List ℤ) := by decide

/-! ### C21 -/

theorem pyRound_natCast (m : ℕ) : pyRound (m : ℝ) = m := by
  unfold pyRound
  have h : Int.fract ((m : ℕ) : ℝ) = 0 := Int.fract_natCast m
  rw [h, if_pos (by norm_num)]
  exact Int.floor_natCast m

theorem exp_log_root {m d : ℕ} (hm : 0 < m) (hd : 0 < d) :
    Real.exp (Real.log ((m ^ d : ℕ) : ℝ) / d) = m := by
  have hm' : (0 : ℝ) < m := by exact_mod_cast hm
  have hd' : (d : ℝ) ≠ 0 := by exact_mod_cast hd.ne'
  rw [Nat.cast_pow, Real.log_pow, mul_div_cancel_left₀ _ hd', Real.exp_log hm']

/-- Without gridpoints: `create` succeeds iff the number of nodes per element is a perfect `ndim`-th power
`m ^ ndim`, and then uses `m` points per axis and, unless given, order `m - 1`. With gridpoints: it succeeds
iff the size is `num_points ^ ndim`. All failures are ValueError. -/
theorem C21_create (n ndim : ℕ) (hn : 1 ≤ n) (hd : 1 ≤ ndim) (order : Option ℤ) :
    (∀ m : ℕ, n = m ^ ndim → premeshCreate n ndim order none = .ok (m, order.getD ((m : ℤ) - 1))) ∧
    ((∀ m : ℕ, n ≠ m ^ ndim) → premeshCreate n ndim order none = .error "ValueError") ∧
    (∀ g : ℕ, n = g ^ ndim → premeshCreate n ndim order (some g) = .ok (g, order.getD ((g : ℤ) - 1))) ∧
    (∀ g : ℕ, n ≠ g ^ ndim → premeshCreate n ndim order (some g) = .error "ValueError") := by
  refine ⟨fun m hm => ?_, fun h => ?_, fun g hg => ?_, fun g hg => ?_⟩
  · have hmpos : 0 < m := by
      rcases Nat.eq_zero_or_pos m with h0 | h0
      · subst h0; rw [zero_pow (by omega)] at hm; omega
      · exact h0
    unfold premeshCreate
    have hpts : (pyRound (Real.exp (Real.log (n : ℝ) / ndim))).toNat = m := by
      rw [hm, exp_log_root hmpos hd, pyRound_natCast]; simp
    simp only [hpts]
    rw [if_neg (by simpa using hm)]
    cases order <;> rfl
  · unfold premeshCreate
    simp only
    rw [if_pos (h _)]
  · unfold premeshCreate
    simp only
    rw [if_neg (by simpa using hg)]
    cases order <;> rfl
  · unfold premeshCreate
    simp only
    rw [if_pos hg]

/-- 27 nodes in three dimensions: order 2. 26 nodes are rejected. -/
example : premeshCreate 27 3 none none = .ok (3, 2) :=
  (C21_create 27 3 (by norm_num) (by norm_num) none).1 3 (by norm_num)
example : premeshCreate 26 3 none none = .error "ValueError" := by
  refine (C21_create 26 3 (by norm_num) (by norm_num) none).2.1 (fun m hm => ?_)
  have h3 : m < 3 := by
    by_contra h
    have : 3 ^ 3 ≤ m ^ 3 := Nat.pow_le_pow_left (by omega) 3
    omega
  interval_cases m <;> omega

end Verif.Core
