import Verif.Lemmas.Distributed
import Verif.Props.C19_C21

/-! The meshes of the devices are pieces of the whole mesh. -/

set_option linter.unusedSectionVars false

namespace Verif.Core

open Verif.Spec

theorem getElem?_flatMap_rows {α β : Type*} (f : α → List β) (M : ℕ) :
    ∀ (l : List α), (∀ a ∈ l, (f a).length = M) → ∀ (m n : ℕ) (hm : m < l.length), n < M →
      (l.flatMap f)[m * M + n]? = (f l[m])[n]? := by
  intro l
  induction l with
  | nil => intro _ m n hm; exact absurd hm (by simp)
  | cons a l ih =>
    intro hf m n hm hn
    have ha : (f a).length = M := hf a List.mem_cons_self
    rw [List.flatMap_cons]
    cases m with
    | zero => rw [zero_mul, zero_add, List.getElem?_append_left (by omega)]; rfl
    | succ m =>
      rw [List.getElem?_append_right (by rw [ha, Nat.add_mul]; omega)]
      have : (m + 1) * M + n - (f a).length = m * M + n := by rw [ha, Nat.add_mul]; omega
      rw [this, ih (fun b hb => hf b (List.mem_cons_of_mem _ hb)) m n (by simpa using hm) hn]
      rfl

theorem length_flatMap_rows {α β : Type*} (f : α → List β) (M : ℕ) :
    ∀ (l : List α), (∀ a ∈ l, (f a).length = M) → (l.flatMap f).length = l.length * M := by
  intro l
  induction l with
  | nil => simp
  | cons a l ih =>
    intro hf
    rw [List.flatMap_cons, List.length_append, hf a List.mem_cons_self, ih (fun b hb => hf b (List.mem_cons_of_mem _ hb)),
      List.length_cons, Nat.add_mul]
    omega

/-- The elements of device `p` in increasing order. -/
def deviceIds (parts : List ℕ) (p : ℕ) : List ℕ := (List.range parts.length).filter (fun i => parts[i]? = some p)

theorem deviceIds_length (parts : List ℕ) (p : ℕ) : (deviceIds parts p).length = parts.count p := by
  unfold deviceIds
  induction parts using List.reverseRecOn with
  | nil => simp
  | append_singleton l a ih =>
    rw [List.length_append, List.length_singleton, List.range_succ, List.filter_append, List.length_append,
      List.count_append]
    congr 1
    · rw [← ih]
      congr 1
      apply List.filter_congr
      intro i hi
      rw [List.getElem?_append_left (List.mem_range.mp hi)]
    · by_cases h : a = p
      · subst h; simp
      · simp [h]

theorem sum_deviceIds {K : Type*} [AddCommMonoid K] (parts : List ℕ) {P : ℕ} (hP : ∀ x ∈ parts, x < P) (F : ℕ → K) :
    ∑ p ∈ Finset.range P, ∑ m ∈ Finset.range (deviceIds parts p).length, F ((deviceIds parts p).getD m 0) =
      ∑ m ∈ Finset.range parts.length, F m := by
  have h1 : ∀ (l : List ℕ), ∑ m ∈ Finset.range l.length, F (l.getD m 0) = (l.map F).sum := by
    intro l
    induction l with
    | nil => simp
    | cons a l ih =>
      rw [List.length_cons, Finset.sum_range_succ', List.map_cons, List.sum_cons, add_comm, ← ih]
      rfl
  have h2 : ∀ (q : ℕ → Bool) (n : ℕ), (((List.range n).filter q).map F).sum =
      ∑ i ∈ Finset.range n, if q i then F i else 0 := by
    intro q n
    induction n with
    | zero => simp
    | succ n ih =>
      rw [List.range_succ, List.filter_append, List.map_append, List.sum_append, ih, Finset.sum_range_succ]
      congr 1
      cases hq : q n <;> simp [hq]
  simp only [h1]
  unfold deviceIds
  simp only [h2]
  rw [Finset.sum_comm]
  refine Finset.sum_congr rfl fun i hi => ?_
  have hi := Finset.mem_range.mp hi
  rw [Finset.sum_eq_single_of_mem parts[i] (Finset.mem_range.mpr (hP _ (List.getElem_mem hi)))]
  · simp [hi]
  · intro p _ hne
    rw [if_neg]
    simp only [List.getElem?_eq_getElem hi, decide_eq_true_eq, Option.some.injEq]
    exact fun h => hne h.symm

/-- The flattened element array of a device, with the amount of padding. -/
theorem deviceRow_pad {C : Type*} (pm : Premesh C) (M : ℕ) (parts : List ℕ) (hne : parts ≠ [])
    (hlen : parts.length = pm.elements.length) :
    ∃ n width, (groupByPartitions parts).length = n ∧ n - 1 ∈ parts ∧ 0 < n ∧ (∀ x ∈ parts, x < n) ∧
      (∀ p < n, parts.count p ≤ width) ∧ (∃ p < n, parts.count p = width) ∧
      ∀ p < n, ((groupByPartitions parts).map (gatherElements pm.elements M))[p]? =
        some (deviceNodes pm.elements parts p ++ List.replicate ((width - parts.count p) * M) (-1)) := by
  obtain ⟨n, hn, ⟨h1, h2, h3⟩, width, h4, h5, hrow⟩ := C17_group_by_partitions parts hne
  refine ⟨n, width, hn, h1, h2, h3, h4, h5, fun p hp => ?_⟩
  rw [List.getElem?_map, hrow p hp, Option.map_some, gatherElements_append, gatherElements_replicate,
    gatherElements_ids]
  · rfl
  · intro e he
    rw [List.mem_filter, List.mem_range] at he
    omega

variable {K : Type*} [Field K] [LinearOrder K] {d : ℕ}

/-- What a premesh without periodic links and with equally many elements per device has to satisfy. -/
structure EvenPremesh (grid : Nodes1D K) (pm : Premesh (Fin d → K)) (parts : List ℕ) (P W : ℕ) : Prop where
  links : pm.periodicLinks = none
  rows : ∀ el ∈ pm.elements, el.length = grid.numPoints ^ d
  range : ∀ el ∈ pm.elements, ∀ x ∈ el, 0 ≤ x ∧ x < pm.numNodes
  length : parts.length = pm.elements.length
  points : 0 < grid.numPoints
  devices : 0 < P
  load : 0 < W
  lt : ∀ x ∈ parts, x < P
  count : ∀ p < P, parts.count p = W

set_option maxHeartbeats 1000000 in
theorem finalize_even {grid : Nodes1D K} {pm : Premesh (Fin d → K)} {parts : List ℕ} {P W : ℕ}
    (h : EvenPremesh grid pm parts P W) :
    ∃ dm, finalizePartitioned pm (grid.numPoints ^ d) parts = .ok dm ∧ dm.nodeIndices.length = P ∧
      (∀ u : ℕ → ℕ → K, ∀ p < P, ∀ i < dm.width, deviceExchange dm u p i =
        if dm.node p i = -1 then u p i else holdersSum P dm.width dm.node u (dm.node p i)) ∧
      IsPartition (wholeMesh grid pm) (deviceMesh grid dm) P dm.width dm.node
        (fun p m => (deviceIds parts p).getD m 0) ∧
      ∀ p < P, deviceMasks dm p = pm.physicalGroups.map
        (fun g => (g.1, fun i => if i < dm.width then maskAt g.2 (dm.node p i) else false)) := by
  have hne : parts ≠ [] := by
    rintro rfl
    have := h.count 0 h.devices
    have := h.load
    simp at *
    omega
  set M := grid.numPoints ^ d with hM
  have hM0 : 0 < M := Nat.pow_pos h.points
  obtain ⟨n, width, hn, hn1, hn0, hlt, hw1, ⟨p0, hp0, hp0w⟩, hrow⟩ := deviceRow_pad pm M parts hne h.length
  have hnP : n = P := by
    have h1 := h.lt _ hn1
    by_contra hne'
    have h2 : n ≤ P - 1 := by omega
    have h3 := h.count (P - 1) (by have := h.devices; omega)
    have h4 : P - 1 ∉ parts := fun hmem => by have := hlt _ hmem; omega
    rw [List.count_eq_zero_of_not_mem h4] at h3
    have := h.load
    omega
  subst hnP
  have hwidth : width = W := by rw [← hp0w]; exact h.count p0 hp0
  subst hwidth
  set E := (groupByPartitions parts).map (gatherElements pm.elements M) with hE
  have hElen : E.length = n := by rw [hE, List.length_map, hn]
  have hErow : ∀ p (hp : p < n), E[p]'(by rw [hElen]; exact hp) = deviceNodes pm.elements parts p := by
    intro p hp
    have := hrow p hp
    rw [h.count p hp, Nat.sub_self, zero_mul, List.replicate_zero, List.append_nil,
      List.getElem?_eq_getElem (by rw [hElen]; exact hp)] at this
    exact Option.some.inj this
  obtain ⟨hl1, hl2, ⟨wd, hwd⟩, hloc⟩ := C18_local_elements E
  have hid : uniqueNodeIndex (none : Option (List (List ℤ × List ℤ))) = id := rfl
  set rows1 := (getLocalElements E).1 with hrows1
  set rows2 := (getLocalElements E).2 with hrows2
  have hwd' : (rows1.map List.length).foldl max 0 = wd := by
    have h0 : 0 < rows1.length := by rw [hl1, hElen]; exact hn0
    have hm0 : rows1[0] ∈ rows1 := List.getElem_mem h0
    have h1 := (le_foldl_max (rows1.map List.length) 0).2 rows1[0].length (List.mem_map.mpr ⟨_, hm0, rfl⟩)
    rw [hwd _ hm0] at h1
    rcases foldl_max_mem (rows1.map List.length) 0 with h2 | h2
    · omega
    · obtain ⟨r, hr, hr2⟩ := List.mem_map.mp h2
      rw [← hr2, hwd r hr]
  have hrow1 : ∀ p (hp : p < n), ∃ real pad, rows1.getD p [] = real ++ List.replicate pad (-1) ∧
      real.length + pad = wd ∧ real.Pairwise (· < ·) ∧
      (∀ x, x ∈ real ↔ x ∈ deviceNodes pm.elements parts p ∧ x ≠ -1) ∧
      (rows2.getD p []).length = (deviceNodes pm.elements parts p).length ∧
      ∀ (k : ℕ) (x : ℤ), (deviceNodes pm.elements parts p)[k]? = some x → x ≠ -1 → ∃ s : ℕ,
        (rows2.getD p [])[k]? = some (s : ℤ) ∧ s < real.length ∧ (rows1.getD p [])[s]? = some x := by
    intro p hp
    obtain ⟨real, pad, locals, h1, h2, h3, h4, h5, h6⟩ := hloc p (by rw [hElen]; exact hp)
    simp only [hErow p hp] at h4 h5 h6
    have e1 : rows1.getD p [] = real ++ List.replicate pad (-1) := by
      rw [List.getD_eq_getElem?_getD, h1]; rfl
    have e2 : rows2.getD p [] = locals := by rw [List.getD_eq_getElem?_getD, h2]; rfl
    refine ⟨real, pad, e1, ?_, h3, h4, by rw [e2, h5], ?_⟩
    · have := hwd _ (List.mem_of_getElem? h1)
      simpa using this
    · intro k x hk hx
      obtain ⟨hk1, hk2⟩ := List.getElem?_eq_some_iff.mp hk
      obtain ⟨s, hs1, hs2, hs3⟩ := (h6 k hk1).2 (by rw [hk2]; exact hx)
      exact ⟨s, by rw [e2]; exact hs1, hs2, by rw [e1, hs3, hk2]⟩
  have hnr : NoRepeats n wd (fun p i => (rows1.getD p []).getD i sentinel) := by
    intro p hp i _ j _ he hs
    obtain ⟨real, pad, hrow, _, h3, _⟩ := hrow1 p hp
    simp only [hrow] at he hs
    have hlt : ∀ m, (real ++ List.replicate pad (-1)).getD m sentinel ≠ -1 → m < real.length := by
      intro m hm
      by_contra hge
      apply hm
      rw [List.getD_eq_getElem?_getD, List.getElem?_append_right (by omega), List.getElem?_replicate]
      split <;> rfl
    have hi := hlt i hs
    have hj := hlt j (he ▸ hs)
    have hget : ∀ m (hm : m < real.length), (real ++ List.replicate pad (-1)).getD m sentinel = real[m] := by
      intro m hm
      rw [List.getD_eq_getElem?_getD, List.getElem?_append_left hm, List.getElem?_eq_getElem hm]
      rfl
    rw [hget i hi, hget j hj] at he
    have hnd : real.Nodup := h3.imp (fun h => ne_of_lt h)
    exact (List.Nodup.getElem_inj_iff hnd).mp he
  obtain ⟨rows, hrows⟩ := (C15_intra_partition_detected _ _ _).2.mpr hnr
  have hfin : finalizePartitioned pm M parts = .ok
      { nodeCoords := rows1.map (fun row => row.map (coordAt pm))
        elements := rows2
        nodeIndices := rows1
        physicalMasks := pm.physicalGroups.map (fun g => (g.1, rows1.map (fun row => row.map (maskAt g.2))))
        exchangeRows := rows } := by
    unfold finalizePartitioned
    simp only [h.links, hid, List.map_id_fun, List.map_id_fun', id_eq]
    rw [← hE, ← hrows1, ← hrows2, hwd', hl1, hElen, hrows]
  have hmem : ∀ p x, x ∈ deviceNodes pm.elements parts p → 0 ≤ x ∧ x < pm.numNodes := by
    intro p x hx
    unfold deviceNodes at hx
    rw [List.mem_flatMap] at hx
    obtain ⟨e, _, hxe⟩ := hx
    obtain ⟨row, hr1, hr2⟩ := mem_getD_nil hxe
    exact h.range row hr1 x hr2
  have hrowlen : ∀ p (hp : p < n), (rows1.getD p []).length = wd := by
    intro p hp
    obtain ⟨real, pad, e1, h2, _⟩ := hrow1 p hp
    rw [e1]; simpa using h2
  have hids : ∀ p < n, (deviceIds parts p).length = width := fun p hp => by rw [deviceIds_length, h.count p hp]
  have hidlt : ∀ p m, m < (deviceIds parts p).length → (deviceIds parts p).getD m 0 < pm.elements.length := by
    intro p m hm
    rw [List.getD_eq_getElem _ _ hm, ← h.length]
    have := List.getElem_mem hm
    unfold deviceIds at this
    rw [List.mem_filter, List.mem_range] at this
    exact this.1
  have hdn : ∀ p, (deviceNodes pm.elements parts p).length = (deviceIds parts p).length * M := by
    intro p
    refine length_flatMap_rows _ M _ fun a ha => ?_
    rw [List.mem_filter, List.mem_range] at ha
    rw [List.getD_eq_getElem _ _ (by rw [← h.length]; exact ha.1)]
    exact h.rows _ (List.getElem_mem _)
  have hdne : ∀ p m k, m < (deviceIds parts p).length → k < M → (deviceNodes pm.elements parts p)[m * M + k]? =
      some ((pm.elements.getD ((deviceIds parts p).getD m 0) []).getD k sentinel) := by
    intro p m k hm hk
    have hlt' := hidlt p m hm
    have e1 := getElem?_flatMap_rows (fun e => pm.elements.getD e []) M (deviceIds parts p) (fun a ha => by
      unfold deviceIds at ha
      rw [List.mem_filter, List.mem_range] at ha
      rw [List.getD_eq_getElem _ _ (by rw [← h.length]; exact ha.1)]
      exact h.rows _ (List.getElem_mem _)) m k hm hk
    have e2 : deviceNodes pm.elements parts p = (deviceIds parts p).flatMap (fun e => pm.elements.getD e []) := rfl
    rw [e2, e1, List.getD_eq_getElem (deviceIds parts p) _ hm]
    rw [List.getD_eq_getElem (deviceIds parts p) _ hm] at hlt'
    have hl : (pm.elements.getD (deviceIds parts p)[m] []).length = M := by
      rw [List.getD_eq_getElem _ _ hlt']; exact h.rows _ (List.getElem_mem _)
    have hk2 : k < (pm.elements.getD (deviceIds parts p)[m] []).length := by rw [hl]; exact hk
    rw [List.getElem?_eq_getElem hk2, List.getD_eq_getElem (pm.elements.getD (deviceIds parts p)[m] []) _ hk2]
  refine ⟨_, hfin, by rw [hl1, hElen], ?_, ?_, ?_⟩
  · intro u p hp i hi
    simp only [DeviceMesh.width, hwd'] at hi ⊢
    obtain ⟨w, hw, hval⟩ := C14_exchange_sums_all_devices n wd (fun p i => (rows1.getD p []).getD i sentinel) u hnr
    unfold meshExchangePart at hw
    rw [hrows, Except.ok.injEq] at hw
    have := hval p hp i hi
    rw [← hw] at this
    simp only [deviceExchange, DeviceMesh.width, DeviceMesh.node, hwd']
    rw [show rows1.length = n by rw [hl1, hElen]]
    exact this
  · refine ⟨?_, ?_, ?_, ?_, ?_⟩
    · intro p hp
      have hne' : (rows2.getD p []).length / grid.numPoints ^ d = width := by
        obtain ⟨_, _, _, _, _, _, h5, _⟩ := hrow1 p hp
        rw [h5, hdn, hids p hp, ← hM, Nat.mul_div_cancel _ hM0]
      refine ⟨rfl, ?_, ?_⟩
      · intro m hm
        simp only [deviceMesh, hne'] at hm
        exact hidlt p m (by rw [hids p hp]; exact hm)
      · intro m hm k hk
        simp only [deviceMesh, hne'] at hm
        have hk' : k < M := hk
        obtain ⟨real, pad, e1, e2, _, _, _, h6⟩ := hrow1 p hp
        have hx := hdne p m k (by rw [hids p hp]; exact hm) hk'
        have hxr := hmem p _ (List.mem_of_getElem? hx)
        obtain ⟨s, hs1, hs2, hs3⟩ := h6 _ _ hx (by omega)
        refine ⟨s, ?_, ?_, ?_, ?_, ?_, ?_⟩
        · simp only [deviceMesh]
          rw [hrowlen p hp]; omega
        · simp only [deviceMesh]
          rw [← hM, List.getD_eq_getElem?_getD, hs1]; rfl
        · simp only [DeviceMesh.node]
          rw [List.getD_eq_getElem?_getD, hs3]; rfl
        · exact hxr.1
        · exact hxr.2
        · simp only [deviceMesh]
          have hp1 : p < rows1.length := by rw [hl1, hElen]; exact hp
          have e3 : (rows1.map (fun row => row.map (coordAt pm))).getD p [] = (rows1.getD p []).map (coordAt pm) := by
            rw [List.getD_eq_getElem _ _ (by rw [List.length_map]; exact hp1), List.getElem_map,
              List.getD_eq_getElem _ _ hp1]
          rw [e3, List.getD_eq_getElem?_getD, List.getElem?_map, hs3]
          simp only [Option.map_some, Option.getD_some, coordAt]
          rw [readPos_of_range hxr.1 hxr.2]
          rfl
    · intro p hp
      simp only [deviceMesh, DeviceMesh.width, hwd']
      exact hrowlen p hp
    · intro F
      rw [show (wholeMesh grid pm).numElements = parts.length by rw [h.length]; rfl, ← sum_deviceIds parts hlt F]
      refine Finset.sum_congr rfl fun p hp => ?_
      have hp := Finset.mem_range.mp hp
      congr 1
      obtain ⟨_, _, _, _, _, _, h5, _⟩ := hrow1 p hp
      simp only [deviceMesh]
      rw [h5, hdn, ← hM, Nat.mul_div_cancel _ hM0]
    · simp only [DeviceMesh.width, hwd']
      exact hnr
    · intro p hp i hi
      obtain ⟨real, pad, e1, e2, _, h4, _⟩ := hrow1 p hp
      simp only [DeviceMesh.node]
      rw [e1]
      by_cases hir : i < real.length
      · right
        rw [List.getD_eq_getElem?_getD, List.getElem?_append_left hir, List.getElem?_eq_getElem hir]
        exact hmem p _ ((h4 _).mp (List.getElem_mem hir)).1
      · left
        rw [List.getD_eq_getElem?_getD, List.getElem?_append_right (by omega), List.getElem?_replicate]
        split <;> rfl
  · intro p hp
    simp only [deviceMasks, List.map_map]
    apply List.map_congr_left
    intro g _
    simp only [Function.comp, Prod.mk.injEq, true_and, DeviceMesh.width, DeviceMesh.node, hwd']
    funext i
    have hp1 : p < rows1.length := by rw [hl1, hElen]; exact hp
    have e3 : (rows1.map (fun row => row.map (maskAt g.2))).getD p [] = (rows1.getD p []).map (maskAt g.2) := by
      rw [List.getD_eq_getElem _ _ (by rw [List.length_map]; exact hp1), List.getElem_map,
        List.getD_eq_getElem _ _ hp1]
    rw [e3]
    split
    · rename_i hi
      have hi' : i < (rows1.getD p []).length := by rw [hrowlen p hp]; exact hi
      rw [List.getD_eq_getElem _ _ (by rw [List.length_map]; exact hi'), List.getElem_map,
        List.getD_eq_getElem (rows1.getD p []) _ hi']
    · rename_i hi
      rw [List.getD_eq_default]
      rw [List.length_map, hrowlen p hp]; omega

end Verif.Core
