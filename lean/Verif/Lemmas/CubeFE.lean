import Verif.Model.CubePoisson
import Verif.Lemmas.CubePatch
import Verif.Props.C77
import Verif.Props.C79

/-!
# The mesh of `unit_cube_mesh` after refinement and `finalize`
-/

namespace Verif.Core

open Verif.Spec MvPolynomial

variable {n d p : ℕ} {a b : ℝ} {per : List ℕ} {t : NodeType}

theorem Nodes1D.at0_vector {grid : Nodes1D ℝ} {m : ℕ} (h : grid.numPoints = m) (i : ℕ) :
    at0 grid.value i = at0 (grid.vector m) i := by
  subst h
  unfold at0
  split
  · next h => simp only [Nodes1D.vector, dif_pos h]
  · rfl

/-- Node families with the end points of the interval. -/
def NodeType.hasEnds (t : NodeType) : Prop := t = .newtonCotes ∨ t = .gaussLobattoLegendre

theorem createNodes_spec (hp : 1 ≤ p) (ht : t.hasEnds) : ∃ grid, createNodes t (p + 1) = some grid ∧ grid.nodeType = t ∧
    grid.numPoints = p + 1 ∧ ElementNodes (grid.vector (p + 1)) ∧ TrueWeights grid.bary grid.value ∧
    Function.Injective grid.value := by
  have hv : ∀ (ty : NodeType) (v bary : Fin (p + 1) → ℝ),
      Nodes1D.vector { nodeType := ty, numPoints := p + 1, value := v, bary := bary } (p + 1) = v := by
    intro ty v bary
    funext i
    unfold Nodes1D.vector
    rw [dif_pos i.2]
  rcases ht with rfl | rfl
  · refine ⟨_, rfl, rfl, rfl, ?_, ?_, ?_⟩
    · rw [hv]; exact ncNode_elementNodes hp
    · exact C32_newton_cotes_weights _
    · exact ncNode_injective _
  · obtain ⟨l, h1, h2, h3, _⟩ := C78_rule p hp
    refine ⟨⟨.gaussLobattoLegendre, p + 1, vec l (p + 1), vec (gllBary (gllWeights (p + 1) l)) (p + 1)⟩, ?_, rfl, rfl, ?_, ?_, ?_⟩
    · simp only [createNodes, h1]
    · rw [hv]; exact h3
    · exact C78_barycentric hp h1
    · exact h3.increasing.injective

/-- The representative of the class of a node is a node of the class. -/
theorem cube_representative {nodes : Fin (p + 1) → ℝ} {r : Refined (Fin d → ℝ)} (hn : 1 ≤ n) (hd : 1 ≤ d)
    (h : ElementNodes nodes) (hab : a ≠ b) {pos : ℕ → ℕ}
    (hr : refinePremesh (cubePremesh n d a b per) nodes = .ok r) (hO : OnGrid nodes n d a b r pos) {v : ℕ}
    (hv : v < r.nodeCoords.length) : ∃ w < r.nodeCoords.length, uniqueNodeIndex r.periodicLinks v = (w : ℕ) ∧
      uniqueNodeIndex r.periodicLinks w = uniqueNodeIndex r.periodicLinks v := by
  have hlp := refined_linkPair hn hd h hab hr hO
  cases hl : r.periodicLinks with
  | none => exact ⟨v, hv, rfl, rfl⟩
  | some l =>
    rw [hl] at hlp
    have hI := compInv_componentMin (periodicEdges l)
    simp only [uniqueNodeIndex_some]
    have key : ∀ x y, Relation.EqvGen (EdgeRel (periodicEdges l)) x y →
        ((∃ v < r.nodeCoords.length, x = (v : ℕ)) ↔ ∃ v < r.nodeCoords.length, y = (v : ℕ)) := by
      intro x y hxy
      induction hxy with
      | rel x y hxy =>
        have h1 := mem_periodicEdges.mp hxy
        obtain ⟨v, hv, w, hw, e1, e2, _⟩ := (hlp x y).mp h1
        exact ⟨fun _ => ⟨w, hw, e2⟩, fun _ => ⟨v, hv, e1⟩⟩
      | refl x => rfl
      | symm x y _ ih => exact ih.symm
      | trans x y z _ _ ih1 ih2 => exact ih1.trans ih2
    obtain ⟨w, hw, hwe⟩ := (key _ _ (hI.conn v)).mp ⟨v, hv, rfl⟩
    refine ⟨w, hw, hwe, ?_⟩
    rw [← hwe]
    exact (hI.resp _ _ (hI.conn v)).symm

/-- What user code gets from `refine_premesh(unit_cube_mesh(..), nodes).finalize()`. -/
structure CubeMesh (n d p : ℕ) (t : NodeType) (a b : ℝ) (per : List ℕ) (mesh : Mesh ℝ d)
    (masks : List (String × (ℕ → Bool))) (node : ℕ → ℕ → ℕ) : Prop where
  made : cubeMesh n d p t a b per = .ok (mesh, masks)
  cells : CubeCells n p a ((b - a) / (2 * n)) mesh node
  family : mesh.grid.nodeType = t
  inside : ∀ j < mesh.numNodes, ∀ k, a ≤ mesh.coords j k ∧ mesh.coords j k ≤ b
  group : (∃ k : Fin d, (k : ℕ) ∉ per) → ∃ mask, masks.lookup "boundary" = some mask
  boundary : ∀ mask, masks.lookup "boundary" = some mask → ∀ j < mesh.numNodes,
    (mask j = true ↔ ∃ k : Fin d, (k : ℕ) ∉ per ∧ (mesh.coords j k = a ∨ mesh.coords j k = b))
  identified : ∀ i < mesh.numNodes, ∀ j < mesh.numNodes, (mesh.nodeIndices i = mesh.nodeIndices j ↔
    ∀ k : Fin d, mesh.coords i k = mesh.coords j k ∨
      ((k : ℕ) ∈ per ∧ ((mesh.coords i k = a ∧ mesh.coords j k = b) ∨ (mesh.coords i k = b ∧ mesh.coords j k = a))))
  index : ∀ j < mesh.numNodes, ∃ w < mesh.numNodes, mesh.nodeIndices j = (w : ℕ)

theorem cubeMesh_spec (hn : 1 ≤ n) (hd : 1 ≤ d) (hp : 1 ≤ p) (ht : t.hasEnds) (hab : a < b) (per : List ℕ) :
    ∃ mesh masks node, CubeMesh n d p t a b per mesh masks node := by
  obtain ⟨grid, hg, hty, hnum, hen, hw, hinj⟩ := createNodes_spec hp ht
  obtain ⟨r, hr, hlen, hN, hnd, pos, hO, hcell⟩ := C76_refined_grid hn hd hen hab.ne per
  have hn0 : (0 : ℝ) < n := by exact_mod_cast hn
  have hba : 0 < b - a := by linarith
  have hnp : 1 ≤ n * p := Nat.mul_pos hn hp
  have hnpe : grid.numPoints ^ d = (p + 1) ^ d := by rw [hnum]
  have hmono := gridOffset_strictMono hen
  -- the coordinates
  have hco : ∀ v < r.nodeCoords.length, ∀ k : Fin d, (finalMesh grid r).1.coords v k =
      a + (b - a) / n * gridOffset (grid.vector (p + 1)) (digit (n * p + 1) d k (pos v)) := by
    intro v hv k
    change r.nodeCoords.getD v 0 k = _
    rw [List.getD_eq_getElem?_getD, hO.coords v hv]
    rfl
  have hoff0 : gridOffset (grid.vector (p + 1)) 0 = 0 := by
    have := gridOffset_cell hen (e := 0) (i := 0) (by omega)
    rw [show 0 * p + 0 = 0 by omega] at this
    rw [this, at0, dif_pos (by omega), show (⟨0, by omega⟩ : Fin (p + 1)) = 0 from rfl, hen.first]
    norm_num
  have hoffn : gridOffset (grid.vector (p + 1)) (n * p) = n := by
    have := gridOffset_cell hen (e := n) (i := 0) (by omega)
    rw [show n * p + 0 = n * p from rfl] at this
    rw [this, at0, dif_pos (by omega), show (⟨0, by omega⟩ : Fin (p + 1)) = 0 from rfl, hen.first]
    norm_num
  have hw0 : (b - a) / n ≠ 0 := (div_pos hba hn0).ne'
  have hinjg : ∀ g g', a + (b - a) / n * gridOffset (grid.vector (p + 1)) g =
      a + (b - a) / n * gridOffset (grid.vector (p + 1)) g' → g = g' := by
    intro g g' he
    exact hmono.injective (mul_left_cancel₀ hw0 (add_left_cancel he))
  have hga : a = a + (b - a) / n * gridOffset (grid.vector (p + 1)) 0 := by rw [hoff0]; ring
  have hgb : b = a + (b - a) / n * gridOffset (grid.vector (p + 1)) (n * p) := by rw [hoffn]; field_simp; ring
  have ha_iff : ∀ v < r.nodeCoords.length, ∀ k : Fin d, (finalMesh grid r).1.coords v k = a ↔
      digit (n * p + 1) d k (pos v) = 0 := by
    intro v hv k
    rw [hco v hv k]
    constructor
    · intro he; exact hinjg _ _ (he.trans hga)
    · intro he; rw [he]; exact hga.symm
  have hb_iff : ∀ v < r.nodeCoords.length, ∀ k : Fin d, (finalMesh grid r).1.coords v k = b ↔
      digit (n * p + 1) d k (pos v) = n * p := by
    intro v hv k
    rw [hco v hv k]
    constructor
    · intro he; exact hinjg _ _ (he.trans hgb)
    · intro he; rw [he]; exact hgb.symm
  have hdl : ∀ v (k : Fin d), digit (n * p + 1) d k (pos v) < n * p + 1 := fun v k =>
    Verif.Common.digit_lt _ _ _ _ (by omega)
  -- node numbers of the cells
  have hex : ∀ e i, ∃ v, e < n ^ d → i < (p + 1) ^ d → v < r.nodeCoords.length ∧ NodeAt r e i v ∧
      ∀ k < d, digit (n * p + 1) d k (pos v) = digit n d k e * p + digit (p + 1) d k i := by
    intro e i
    by_cases h : e < n ^ d ∧ i < (p + 1) ^ d
    · obtain ⟨v, h1, h2, h3⟩ := hcell e h.1 i h.2
      exact ⟨v, fun _ _ => ⟨h1, h2, h3⟩⟩
    · exact ⟨0, fun h1 h2 => absurd ⟨h1, h2⟩ h⟩
  choose node hnode using hex
  have hdigit : ∀ e < n ^ d, ∀ i < (p + 1) ^ d, ∀ k : Fin d, gridOffset (grid.vector (p + 1)) (digit (n * p + 1) d k (pos (node e i))) =
      digit n d k e + (1 + at0 (grid.vector (p + 1)) (digit (p + 1) d k i)) / 2 := by
    intro e he i hi k
    rw [(hnode e i he hi).2.2 k k.2]
    exact gridOffset_cell hen (Verif.Common.digit_lt _ _ _ _ (by omega))
  refine ⟨(finalMesh grid r).1, (finalMesh grid r).2, node, ?_, ?_, hty, ?_, ?_, ?_, ?_, ?_⟩
  · unfold cubeMesh
    rw [hg]
    simp only
    rw [hr]
  · refine ⟨⟨by positivity, hp, hd, hnum, hw, hinj, hlen, ?_, ?_, ?_, ?_⟩, ?_, ?_, ?_, ?_⟩
    · intro e he i hi
      exact (hnode e i he (by rw [← hnpe]; exact hi)).1
    · intro e he i hi
      obtain ⟨ref, h1, h2⟩ := (hnode e i he (by rw [← hnpe]; exact hi)).2.1
      change (r.elements.getD e []).getD i sentinel = _
      have h3 : r.elements.getD e [] = ref := by rw [List.getD_eq_getElem?_getD, h1]; rfl
      rw [h3, List.getD_eq_getElem?_getD, h2]
      rfl
    · intro e he i hi k
      have hi' : i < (p + 1) ^ d := by rw [← hnpe]; exact hi
      rw [hco _ (hnode e i he hi').1, hdigit e he i hi' k]
      have hgp : gridPoint d grid.value i k = at0 (grid.vector (p + 1)) (digit (p + 1) d k i) := by
        unfold gridPoint
        rw [Nodes1D.at0_vector hnum]
        have : digit grid.numPoints d k i = digit (p + 1) d k i := by rw [hnum]
        rw [this]
      change _ = (b - a) / (2 * n) * gridPoint d grid.value i k + _
      rw [hgp, centre]
      field_simp
      ring
    · intro v hv
      obtain ⟨e, he, i, hi, hat⟩ := cube_used hn hd hen a b per hr hv
      refine ⟨e, he, i, by rw [Mesh.nodesPerElem]; change i < grid.numPoints ^ d; rw [hnpe]; exact hi, ?_⟩
      exact cube_conforming hn hd hen a b per hr he hi he hi (hnode e i he hi).2.1 hat (fun _ _ => rfl)
    · change at0 grid.value 0 = -1
      rw [Nodes1D.at0_vector hnum, at0, dif_pos (by omega)]
      exact hen.first
    · change at0 grid.value p = 1
      rw [Nodes1D.at0_vector hnum, at0, dif_pos (by omega)]
      exact hen.last
    · intro i hi
      change -1 ≤ at0 grid.value i ∧ at0 grid.value i ≤ 1
      rw [Nodes1D.at0_vector hnum]
      have := at0_bounds hen hi
      exact ⟨this.1, this.2.1⟩
    · intro e he i hi e' he' i' hi' hk
      have hi1 : i < (p + 1) ^ d := by rw [← hnpe]; exact hi
      have hi2 : i' < (p + 1) ^ d := by rw [← hnpe]; exact hi'
      have g1 := hnode e i he hi1
      have g2 := hnode e' i' he' hi2
      apply hO.bij.injOn g1.1 g2.1
      apply digit_ext (hO.bij.mapsTo g1.1) (hO.bij.mapsTo g2.1)
      intro k hkd
      rw [g1.2.2 k hkd, g2.2.2 k hkd, hk k hkd]
  · intro v hv k
    have hle := hdl v k
    rw [hco v hv k]
    constructor
    · conv_lhs => rw [hga]
      have := hmono.monotone (Nat.zero_le (digit (n * p + 1) d k (pos v)))
      have := mul_le_mul_of_nonneg_left this (div_pos hba hn0).le
      linarith
    · conv_rhs => rw [hgb]
      have := hmono.monotone (show digit (n * p + 1) d k (pos v) ≤ n * p by omega)
      have := mul_le_mul_of_nonneg_left this (div_pos hba hn0).le
      linarith
  · rintro ⟨k, hk⟩
    obtain ⟨h1, h2, h3⟩ := C77_boundary hn hd hen hab.ne hr hO
    have hne := h1.mp ⟨k, k.2, hk⟩
    obtain ⟨g, l, hgl⟩ := List.exists_cons_of_ne_nil hne
    have hg1 := (h3 g (by rw [hgl]; simp)).1
    refine ⟨fun v => maskAt g.2.flatten (uniqueNodeIndex r.periodicLinks (v : ℤ)), ?_⟩
    change (List.map _ (r.physicalGroups.map _)).lookup "boundary" = _
    rw [hgl, List.map_cons, List.map_cons]
    simp only [List.lookup_cons, hg1, beq_self_eq_true]
    rfl
  · intro mask hm j hj
    obtain ⟨h1, h2, h3⟩ := C77_boundary hn hd hen hab.ne hr hO
    change (List.map _ (r.physicalGroups.map _)).lookup "boundary" = _ at hm
    cases hpg : r.physicalGroups with
    | nil => rw [hpg] at hm; simp at hm
    | cons g l =>
      have hg1 := h3 g (by rw [hpg]; simp)
      rw [hpg, List.map_cons, List.map_cons] at hm
      simp only [List.lookup_cons, hg1.1, beq_self_eq_true, Option.some.injEq] at hm
      subst hm
      obtain ⟨w, hw1, hw2, hw3⟩ := cube_representative hn hd hen hab.ne hr hO hj
      change maskAt g.2.flatten (uniqueNodeIndex r.periodicLinks (j : ℤ)) = true ↔ _
      rw [hw2, maskAt, decide_eq_true_iff, List.mem_flatten, hg1.2 w hw1]
      have htor := (C77_torus hn hd hen hab.ne hr hO hw1 hj).mp hw3
      constructor
      · rintro ⟨k, hk, hkper, hor⟩
        refine ⟨⟨k, hk⟩, hkper, ?_⟩
        rw [ha_iff j hj, hb_iff j hj, ← (htor k hk).2 hkper]
        exact hor
      · rintro ⟨k, hkper, hor⟩
        refine ⟨k, k.2, hkper, ?_⟩
        rw [(htor k k.2).2 hkper, ← ha_iff j hj, ← hb_iff j hj]
        exact hor
  · intro i hi j hj
    change uniqueNodeIndex r.periodicLinks (i : ℤ) = uniqueNodeIndex r.periodicLinks (j : ℤ) ↔ _
    rw [C77_torus hn hd hen hab.ne hr hO hi hj]
    have heq : ∀ k : Fin d, (finalMesh grid r).1.coords i k = (finalMesh grid r).1.coords j k ↔
        digit (n * p + 1) d k (pos i) = digit (n * p + 1) d k (pos j) := by
      intro k
      rw [hco i hi k, hco j hj k]
      exact ⟨fun he => hinjg _ _ he, fun he => by rw [he]⟩
    have hmod : ∀ x y, x < n * p + 1 → y < n * p + 1 → (x % (n * p) = y % (n * p) ↔ x = y ∨ (x = 0 ∧ y = n * p) ∨
        (x = n * p ∧ y = 0)) := by
      intro x y hx hy
      rcases Nat.lt_or_ge x (n * p) with h1 | h1 <;> rcases Nat.lt_or_ge y (n * p) with h2 | h2
      · rw [Nat.mod_eq_of_lt h1, Nat.mod_eq_of_lt h2]; omega
      · have : y = n * p := by omega
        rw [Nat.mod_eq_of_lt h1, this, Nat.mod_self]; omega
      · have : x = n * p := by omega
        rw [Nat.mod_eq_of_lt h2, this, Nat.mod_self]; omega
      · have e1 : x = n * p := by omega
        have e2 : y = n * p := by omega
        rw [e1, e2]; simp
    constructor
    · intro h k
      rw [heq k, ha_iff i hi, ha_iff j hj, hb_iff i hi, hb_iff j hj]
      by_cases hk : (k : ℕ) ∈ per
      · rcases (hmod _ _ (hdl i k) (hdl j k)).mp ((h k k.2).1 hk) with h1 | h1
        · exact Or.inl h1
        · exact Or.inr ⟨hk, h1⟩
      · exact Or.inl ((h k k.2).2 hk)
    · intro h k hk
      have h1 := h ⟨k, hk⟩
      rw [heq ⟨k, hk⟩, ha_iff i hi, ha_iff j hj, hb_iff i hi, hb_iff j hj] at h1
      constructor
      · intro _
        rw [hmod _ _ (hdl i ⟨k, hk⟩) (hdl j ⟨k, hk⟩)]
        rcases h1 with h1 | h1
        · exact Or.inl h1
        · exact Or.inr h1.2
      · intro hper
        rcases h1 with h1 | h1
        · exact h1
        · exact absurd h1.1 hper
  · intro j hj
    obtain ⟨w, hw1, hw2, _⟩ := cube_representative hn hd hen hab.ne hr hO hj
    exact ⟨w, hw1, hw2⟩

end Verif.Core
