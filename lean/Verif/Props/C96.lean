import Verif.Lemmas.DeviceMesh

/-!
# C96: solving on a partitioned mesh
-/

set_option linter.unusedSectionVars false

namespace Verif.Core

open Verif.Spec Verif.Linalg

variable {K : Type*} [Field K] [LinearOrder K] {d : ℕ}

/-! ### Helper lemmas -/

section

variable {G : Mesh K d} {D : ℕ → Mesh K d} {P N : ℕ} {node : ℕ → ℕ → ℤ} {e : ℕ → ℕ → ℕ}
  {fs : FESpace K d} {fss : ℕ → FESpace K d}

/-- The spaces of the pieces. -/
structure IsPartitionSpace (G : Mesh K d) (D : ℕ → Mesh K d) (P N : ℕ) (node : ℕ → ℕ → ℤ) (e : ℕ → ℕ → ℕ)
    (fs : FESpace K d) (fss : ℕ → FESpace K d) : Prop where
  part : IsPartition G D P N node e
  mesh : fs.mesh = G
  meshes : ∀ p < P, (fss p).mesh = D p
  space : ∀ p < P, IsPieceSpace fs (fss p) (node p) (e p)

theorem IsPartitionSpace.gather (h : IsPartitionSpace G D P N node e fs fss) {u' : ℕ → ℕ → K} {u : ℕ → K}
    (hu : Assembled P N node u' u) {p m k : ℕ} (hp : p < P) (hm : m < (D p).numElements) (hk : k < G.nodesPerElem) :
    (D p).gather (u' p) m k = G.gather u (e p m) k :=
  (h.part.piece p hp).gather (fun s hs h0 => hu p hp s (by rw [← h.part.numNodes p hp]; exact hs) h0) hm hk

theorem IsPartitionSpace.stiff (h : IsPartitionSpace G D P N node e fs fss) {u' : ℕ → ℕ → K} {u : ℕ → K}
    (hu : Assembled P N node u' u) :
    Additive G P N node (onDevices (fun p => stiffOp (fss p)) u') (stiffOp fs u) := by
  have hop : ∀ p < P, stiffOp (fss p) (u' p) = (D p).scatter
      (scalarCovector (stiffForm (fss p) ((D p).gather (u' p)))) := by
    intro p hp; unfold stiffOp; rw [h.meshes p hp]
  constructor
  · intro j _
    unfold stiffOp
    rw [h.mesh, ← h.part.scatter (cov := scalarCovector (stiffForm fs (G.gather u)))
      (cov' := fun p => scalarCovector (stiffForm (fss p) ((D p).gather (u' p))))]
    · unfold holdersSum
      refine Finset.sum_congr rfl fun q hq => ?_
      rw [Finset.mem_filter, Finset.mem_product, Finset.mem_range] at hq
      exact congrFun (hop q.1 hq.1.1) q.2
    · intro p hp m hm n _
      refine (h.space p hp).stiff n (by rw [h.meshes p hp]; exact hm) fun k hk => ?_
      rw [h.mesh] at hk
      exact h.gather hu hp hm hk
  · intro p hp i hi hpad
    exact (congrFun (hop p hp) i).trans (h.part.scatter_pad _ hp hpad)

theorem IsPartitionSpace.mass (h : IsPartitionSpace G D P N node e fs fss) {u' : ℕ → ℕ → K} {u : ℕ → K}
    (hu : Assembled P N node u' u) :
    Additive G P N node (onDevices (fun p => massOp (fss p)) u') (massOp fs u) := by
  have hop : ∀ p < P, massOp (fss p) (u' p) = (D p).scatter
      (scalarCovector (massForm (fss p) ((D p).gather (u' p)))) := by
    intro p hp; unfold massOp; rw [h.meshes p hp]
  constructor
  · intro j _
    unfold massOp
    rw [h.mesh, ← h.part.scatter (cov := scalarCovector (massForm fs (G.gather u)))
      (cov' := fun p => scalarCovector (massForm (fss p) ((D p).gather (u' p))))]
    · unfold holdersSum
      refine Finset.sum_congr rfl fun q hq => ?_
      rw [Finset.mem_filter, Finset.mem_product, Finset.mem_range] at hq
      exact congrFun (hop q.1 hq.1.1) q.2
    · intro p hp m hm n _
      refine (h.space p hp).mass n (by rw [h.meshes p hp]; exact hm) fun k hk => ?_
      rw [h.mesh] at hk
      exact h.gather hu hp hm hk
  · intro p hp i hi hpad
    exact (congrFun (hop p hp) i).trans (h.part.scatter_pad _ hp hpad)

end

theorem spaces_even {grid : Nodes1D K} {pm : Premesh (Fin d → K)} {parts : List ℕ} {P W : ℕ}
    (h : EvenPremesh grid pm parts P W) {quad : Quadrature1D K} {fs : FESpace K d}
    (hfs : FESpace.create (wholeMesh grid pm) quad = some fs) :
    ∃ dm, finalizePartitioned pm (grid.numPoints ^ d) parts = .ok dm ∧ dm.nodeIndices.length = P ∧
      (∀ u : ℕ → ℕ → K, ∀ p < P, ∀ i < dm.width, deviceExchange dm u p i =
        if dm.node p i = -1 then u p i else holdersSum P dm.width dm.node u (dm.node p i)) ∧
      (∀ p < P, deviceMasks dm p = pm.physicalGroups.map
        (fun g => (g.1, fun i => if i < dm.width then maskAt g.2 (dm.node p i) else false))) ∧
      ∃ fss : ℕ → FESpace K d, (∀ p < P, FESpace.create (deviceMesh grid dm p) quad = some (fss p)) ∧
        IsPartitionSpace (wholeMesh grid pm) (deviceMesh grid dm) P dm.width dm.node
          (fun p m => (deviceIds parts p).getD m 0) fs fss := by
  obtain ⟨dm, h1, h2, h3, h4, h5⟩ := finalize_even h
  refine ⟨dm, h1, h2, h3, h5, ?_⟩
  have hm : fs.mesh = wholeMesh grid pm := by
    unfold FESpace.create at hfs
    split at hfs
    · exact absurd hfs (by simp)
    · rename_i hb
      split at hfs
      · obtain ⟨_, _, _, _, _, _, _, hm, _⟩ := FESpace.build_fields hb
        simp only [Option.some.injEq] at hfs
        rw [← hfs]; exact hm
      · exact absurd hfs (by simp)
  have hex : ∀ p, ∃ f, p < P → FESpace.create (deviceMesh grid dm p) quad = some f ∧ f.mesh = deviceMesh grid dm p ∧
      IsPieceSpace fs f (dm.node p) (fun m => (deviceIds parts p).getD m 0) := by
    intro p
    by_cases hp : p < P
    · obtain ⟨f, hf⟩ := create_piece (h4.piece p hp) h.points hfs
      exact ⟨f, fun _ => hf⟩
    · exact ⟨fs, fun h' => absurd h' hp⟩
  choose fss hfss using hex
  exact ⟨fss, fun p hp => (hfss p hp).1, h4, hm, fun p hp => (hfss p hp).2.1, fun p hp => (hfss p hp).2.2⟩

theorem interiorMask_foldRel (groups : List (String × List ℤ)) (f f' : List ℤ → ℕ → Bool) (bcs : List (String × BCType)) :
    ∀ (w w' : ℕ → K), (∀ i j, (∀ g, f g i = f' g j) → w i = w' j) →
    Option.Rel (fun (a a' : ℕ → K) => ∀ i j, (∀ g, f g i = f' g j) → a i = a' j)
      (bcs.foldlM (fun w bc =>
        if bc.2 = .dirichlet then
          match (groups.map (fun g => (g.1, f g.2))).lookup bc.1 with
          | none => none
          | some mask => some (fun j => w j * (1 - if mask j then 1 else 0))
        else some w) w)
      (bcs.foldlM (fun w bc =>
        if bc.2 = .dirichlet then
          match (groups.map (fun g => (g.1, f' g.2))).lookup bc.1 with
          | none => none
          | some mask => some (fun j => w j * (1 - if mask j then 1 else 0))
        else some w) w') := by
  have hl : ∀ (key : String) (F : List ℤ → ℕ → Bool), (groups.map (fun g => (g.1, F g.2))).lookup key =
      (groups.lookup key).map F := by
    intro key F
    induction groups with
    | nil => rfl
    | cons g gs ih =>
      obtain ⟨k, v⟩ := g
      simp only [List.map_cons, List.lookup_cons]
      cases key == k
      · exact ih
      · rfl
  simp only [hl]
  induction bcs with
  | nil => intro w w' hw; exact .some hw
  | cons bc bcs ih =>
    intro w w' hw
    simp only [List.foldlM_cons]
    by_cases hd : bc.2 = .dirichlet
    · simp only [if_pos hd]
      cases groups.lookup bc.1 with
      | none => exact .none
      | some g =>
        simp only [Option.map_some, Option.bind_eq_bind, Option.bind_some]
        refine ih _ _ fun i j hij => ?_
        rw [hw i j hij, hij g]
    · simp only [if_neg hd, Option.bind_eq_bind, Option.bind_some]
      exact ih _ _ hw

/-- The masks of two index sets agree where the physical groups agree. -/
theorem interiorMask_rel (groups : List (String × List ℤ)) (f f' : List ℤ → ℕ → Bool) (bcs : List (String × BCType)) :
    Option.Rel (fun (a a' : ℕ → K) => ∀ i j, (∀ g, f g i = f' g j) → a i = a' j)
      (interiorMask (groups.map (fun g => (g.1, f g.2))) bcs) (interiorMask (groups.map (fun g => (g.1, f' g.2))) bcs) :=
  interiorMask_foldRel groups f f' bcs (fun _ => 1) (fun _ => 1) (fun _ _ _ => rfl)

theorem optionRel_mono {α β : Type*} {R S : α → β → Prop} (h : ∀ a b, R a b → S a b) {x : Option α} {y : Option β}
    (hr : Option.Rel R x y) : Option.Rel S x y := by
  cases hr with
  | none => exact .none
  | some hr => exact .some (h _ _ hr)

theorem optionRel_some {α β : Type*} {R : α → β → Prop} {x : Option α} {b : β} (h : Option.Rel R x (some b)) :
    ∃ a, x = some a ∧ R a b := by
  cases h with
  | some h => exact ⟨_, rfl, h⟩

/-! ### the theorems -/

/-- A mesh without periodic links, cut into parts of equally many elements: `finalize` returns, the space of every
device exists when the space of the whole mesh does, and applying the stiffness or mass operator on every device to the
device's copy of a vector, followed by `exchange`, gives every device its copy of the operator of the whole mesh applied
to the vector. Missing from the full claim: periodic links (`C19_violated`, `C20_violated`) and parts of different sizes
(`C96_uneven`). -/
theorem C96_operators_partial {grid : Nodes1D K} {pm : Premesh (Fin d → K)} {parts : List ℕ} {P W : ℕ}
    (h : EvenPremesh grid pm parts P W) {quad : Quadrature1D K} {fs : FESpace K d}
    (hfs : FESpace.create (wholeMesh grid pm) quad = some fs) :
    ∃ dm, finalizePartitioned pm (grid.numPoints ^ d) parts = .ok dm ∧ dm.nodeIndices.length = P ∧
      ∃ fss : ℕ → FESpace K d, (∀ p < P, FESpace.create (deviceMesh grid dm p) quad = some (fss p)) ∧
        ∀ (u : ℕ → K) (u' : ℕ → ℕ → K),
          (∀ p < P, ∀ i < dm.width, 0 ≤ dm.node p i → u' p i = u (dm.node p i).toNat) →
          ∀ p < P, ∀ i < dm.width, 0 ≤ dm.node p i →
            deviceExchange dm (onDevices (fun q => stiffOp (fss q)) u') p i = stiffOp fs u (dm.node p i).toNat ∧
            deviceExchange dm (onDevices (fun q => massOp (fss q)) u') p i = massOp fs u (dm.node p i).toNat := by
  obtain ⟨dm, h1, h2, h3, _, fss, h5, h6⟩ := spaces_even h hfs
  refine ⟨dm, h1, h2, fss, h5, fun u u' hu p hp i hi h0 => ?_⟩
  have hr : (dm.node p i).toNat < (wholeMesh grid pm).numNodes := by
    rcases h6.part.range p hp i hi with h' | h' <;> omega
  have hc : ((dm.node p i).toNat : ℤ) = dm.node p i := Int.toNat_of_nonneg h0
  constructor
  · rw [h3 _ p hp i hi, if_neg (by omega), ← (h6.stiff hu).1 _ hr, hc]
  · rw [h3 _ p hp i hi, if_neg (by omega), ← (h6.mass hu).1 _ hr, hc]

/-- Conjugate gradients on the devices (dot products summed over the devices, `exchange` as `M`, relative tolerance zero)
and on the whole mesh (no preconditioner) for the Poisson operator with boundary masks: the same number of iterations, the
same residual, and every device ends with its copy of the solution on the whole mesh; one run divides by zero exactly when
the other one does. Missing from the full claim: a relative tolerance (`C96_tolerance_violated`), periodic links, parts of
different sizes. -/
theorem C96_cg_partial {grid : Nodes1D K} {pm : Premesh (Fin d → K)} {parts : List ℕ} {P W : ℕ}
    (h : EvenPremesh grid pm parts P W) {quad : Quadrature1D K} {fs : FESpace K d}
    (hfs : FESpace.create (wholeMesh grid pm) quad = some fs) (bcs : List (String × BCType)) {mask : ℕ → K}
    (hmask : interiorMask (finalizeUnpartitioned pm).physicalMasks bcs = some mask) :
    ∃ dm, finalizePartitioned pm (grid.numPoints ^ d) parts = .ok dm ∧ dm.nodeIndices.length = P ∧
      ∃ (fss : ℕ → FESpace K d) (masks : ℕ → ℕ → K),
        (∀ p < P, FESpace.create (deviceMesh grid dm p) quad = some (fss p) ∧
          interiorMask (deviceMasks dm p) bcs = some (masks p)) ∧
        ∀ (f x0 : ℕ → K) (f' x0' : ℕ → ℕ → K),
          (∀ p < P, ∀ i < dm.width, 0 ≤ dm.node p i →
            f' p i = f (dm.node p i).toNat ∧ x0' p i = x0 (dm.node p i).toNat) →
          ∀ (atol : K) (maxiter : ℕ), Option.Rel
            (fun (a : (ℕ → ℕ → K) × K × ℕ) (b : (ℕ → K) × K × ℕ) => a.2 = b.2 ∧
              ∀ p < P, ∀ i < dm.width, 0 ≤ dm.node p i → a.1 p i = b.1 (dm.node p i).toNat)
            (cg (psumDot P dm.width) (onDevices (fun p => poissonOp (fss p) (masks p))) (deviceExchange dm)
              (onDevices (fun p => poissonRhs (fss p) (masks p)) f') x0' 0 atol maxiter)
            (cg (nodeDot pm.numNodes) (poissonOp fs mask) id (poissonRhs fs mask f) x0 0 atol maxiter) := by
  obtain ⟨dm, h1, h2, h3, h4, fss, h5, h6⟩ := spaces_even h hfs
  have hmex : ∀ p, ∃ mk : ℕ → K, p < P → interiorMask (deviceMasks dm p) bcs = some mk ∧
      ∀ i < dm.width, 0 ≤ dm.node p i → mk i = mask (dm.node p i).toNat := by
    intro p
    by_cases hp : p < P
    · have hrel := interiorMask_rel (K := K) pm.physicalGroups
        (fun g i => if i < dm.width then maskAt g (dm.node p i) else false)
        (fun g k => maskAt g (uniqueNodeIndex pm.periodicLinks (k : ℤ))) bcs
      have e1 : (finalizeUnpartitioned pm).physicalMasks = pm.physicalGroups.map
          (fun g => (g.1, fun k : ℕ => maskAt g.2 (uniqueNodeIndex pm.periodicLinks (k : ℤ)))) := rfl
      rw [← e1, hmask] at hrel
      rw [h4 p hp]
      revert hrel
      generalize (interiorMask _ bcs : Option (ℕ → K)) = r
      intro hrel
      cases hrel with
      | @some mk _ hrel =>
        refine ⟨mk, fun _ => ⟨rfl, fun i hi h0 => hrel i _ fun g => ?_⟩⟩
        rw [if_pos hi, h.links, Int.toNat_of_nonneg h0]
        rfl
    · exact ⟨fun _ => 0, fun h' => absurd h' hp⟩
  choose masks hmasks using hmex
  refine ⟨dm, h1, h2, fss, masks, fun p hp => ⟨h5 p hp, (hmasks p hp).1⟩, fun f x0 f' x0' hfx atol maxiter => ?_⟩
  have hmA : Assembled P dm.width dm.node masks mask := fun p hp i hi h0 => (hmasks p hp).2 i hi h0
  have hR : CGRel (psumDot P dm.width) (onDevices (fun p => poissonOp (fss p) (masks p))) (deviceExchange dm)
      (nodeDot pm.numNodes) (poissonOp fs mask) id (Assembled P dm.width dm.node)
      (Additive (wholeMesh grid pm) P dm.width dm.node) := by
    refine ⟨?_, ?_, ?_, ?_, ?_, ?_⟩
    · intro x y x' y' c hx hy p hp i hi h0
      simp only [Pi.add_apply, Pi.smul_apply, hx p hp i hi h0, hy p hp i hi h0]
    · intro x y x' y' c hx hy
      refine ⟨fun j hj => ?_, fun p hp i hi hpad => ?_⟩
      · rw [holdersSum_sub_smul, hx.1 j hj, hy.1 j hj]; rfl
      · simp only [Pi.sub_apply, Pi.smul_apply, hx.2 p hp i hi hpad, hy.2 p hp i hi hpad, smul_zero, sub_zero]
    · intro x x' hx
      exact IsPartition.additive_mask hmA (h6.stiff hx)
    · intro r r' hr p hp i hi h0
      have hlt : (dm.node p i).toNat < (wholeMesh grid pm).numNodes := by
        rcases h6.part.range p hp i hi with h' | h' <;> omega
      rw [h3 r p hp i hi, if_neg (by omega), id, ← hr.1 _ hlt, Int.toNat_of_nonneg h0]
    · intro x x' r r' hx hr
      exact h6.part.dot hx hr
    · intro x x' r r' hr hx
      rw [psumDot_comm, nodeDot_comm]
      exact h6.part.dot hx hr
  have hb : Additive (wholeMesh grid pm) P dm.width dm.node (onDevices (fun p => poissonRhs (fss p) (masks p)) f')
      (poissonRhs fs mask f) :=
    IsPartition.additive_mask hmA (h6.mass fun p hp i hi h0 => (hfx p hp i hi h0).1)
  have hsim := cg_sim hR hb (fun p hp i hi h0 => (hfx p hp i hi h0).2) (tol := 0) (atol := atol) (tol' := 0)
    (atol' := atol) (by simp [cgBound]) maxiter
  exact optionRel_mono (fun a b hab => ⟨hab.2, hab.1⟩) hsim

/-- A user's view of `C96_cg_partial`: when `solve_poisson` (relative tolerance zero) on the whole mesh returns `u`, `cg` on
the devices with the same cap on the iterations returns the copies of `u`. -/
theorem C96_solve_partial {grid : Nodes1D K} {pm : Premesh (Fin d → K)} {parts : List ℕ} {P W : ℕ}
    (h : EvenPremesh grid pm parts P W) {quad : Quadrature1D K} (bcs : List (PoissonBC K)) (f : ℕ → K) (atol : K)
    {u : ℕ → K} (hu : solvePoisson (wholeMesh grid pm) quad (finalizeUnpartitioned pm).physicalMasks f bcs 0 atol = .ok u) :
    ∃ dm, finalizePartitioned pm (grid.numPoints ^ d) parts = .ok dm ∧ dm.nodeIndices.length = P ∧
      ∃ (fss : ℕ → FESpace K d) (masks : ℕ → ℕ → K),
        (∀ p < P, FESpace.create (deviceMesh grid dm p) quad = some (fss p) ∧
          interiorMask (deviceMasks dm p) (bcs.map (fun bc => (bc.group, bc.type))) = some (masks p)) ∧
        ∀ f' : ℕ → ℕ → K, (∀ p < P, ∀ i < dm.width, 0 ≤ dm.node p i → f' p i = f (dm.node p i).toNat) →
          ∃ x' res its, cg (psumDot P dm.width) (onDevices (fun p => poissonOp (fss p) (masks p))) (deviceExchange dm)
              (onDevices (fun p => poissonRhs (fss p) (masks p)) f') 0 0 atol (10 * pm.numNodes) =
                some (x', res, its) ∧
            ∀ p < P, ∀ i < dm.width, 0 ≤ dm.node p i → x' p i = u (dm.node p i).toNat := by
  unfold solvePoisson at hu
  split at hu
  · exact absurd hu (by simp)
  rename_i fs hfs
  split at hu
  · exact absurd hu (by simp)
  split at hu
  · exact absurd hu (by simp)
  rename_i mask hmask
  split at hu
  · exact absurd hu (by simp)
  rename_i u' res' its' hcg
  rw [Except.ok.injEq] at hu
  subst hu
  obtain ⟨dm, h1, h2, fss, masks, h3, h4⟩ := C96_cg_partial h hfs _ hmask
  refine ⟨dm, h1, h2, fss, masks, h3, fun f' hf => ?_⟩
  have := h4 f 0 f' 0 (fun p hp i hi h0 => ⟨hf p hp i hi h0, rfl⟩) atol (10 * pm.numNodes)
  unfold cgDefault at hcg
  rw [show (wholeMesh grid pm).numNodes = pm.numNodes from rfl] at hcg
  rw [hcg] at this
  obtain ⟨a, ha, hab⟩ := optionRel_some this
  exact ⟨a.1, a.2.1, a.2.2, ha, hab.2⟩

/-- Parts of different sizes: on every device with fewer elements than another one, the space does not exist, because the
Jacobians of the padding elements are zero and `jnp.linalg.inv` returns infinities or NaN for them. -/
theorem C96_uneven (grid : Nodes1D K) (hpts : 0 < grid.numPoints) (hd : 0 < d) (pm : Premesh (Fin d → K))
    (hrows : ∀ el ∈ pm.elements, el.length = grid.numPoints ^ d) (parts : List ℕ)
    (hlen : parts.length = pm.elements.length) (quad : Quadrature1D K) (hquad : 0 < quad.nodes.numPoints)
    {dm : DeviceMesh (Fin d → K)} (hok : finalizePartitioned pm (grid.numPoints ^ d) parts = .ok dm)
    {p q : ℕ} (hp : ∃ x ∈ parts, p ≤ x) (hpq : parts.count p < parts.count q) :
    FESpace.create (deviceMesh grid dm p) quad = none := by
  have hne : parts ≠ [] := by rintro rfl; simp at hpq
  set M := grid.numPoints ^ d with hM
  have hM0 : 0 < M := Nat.pow_pos hpts
  obtain ⟨n, width, hn, hn1, hn0, hlt, hw1, _, hrow⟩ := deviceRow_pad pm M parts hne hlen
  have hpn : p < n := by
    obtain ⟨x, hx, hpx⟩ := hp
    exact lt_of_le_of_lt hpx (hlt x hx)
  have hqn : q < n := hlt q (List.count_pos_iff.mp (by omega))
  have hcw : parts.count p < width := lt_of_lt_of_le hpq (hw1 q hqn)
  set E := (groupByPartitions parts).map (gatherElements pm.elements M) with hE
  have hElen : E.length = n := by rw [hE, List.length_map, hn]
  have hErow : E[p]'(by rw [hElen]; exact hpn) =
      deviceNodes pm.elements parts p ++ List.replicate ((width - parts.count p) * M) (-1) := by
    have := hrow p hpn
    rw [List.getElem?_eq_getElem (by rw [hElen]; exact hpn)] at this
    exact Option.some.inj this
  have hdn : (deviceNodes pm.elements parts p).length = parts.count p * M := by
    rw [← deviceIds_length]
    refine length_flatMap_rows _ M _ fun a ha => ?_
    rw [List.mem_filter, List.mem_range] at ha
    rw [List.getD_eq_getElem _ _ (by rw [← hlen]; exact ha.1)]
    exact hrows _ (List.getElem_mem _)
  obtain ⟨hl1, hl2, _, hloc⟩ := C18_local_elements E
  obtain ⟨real, pad, locals, _, h2, _, _, h5, h6⟩ := hloc p (by rw [hElen]; exact hpn)
  have hel : dm.elements.getD p [] = locals := by
    unfold finalizePartitioned at hok
    simp only at hok
    split at hok
    · exact absurd hok (by simp)
    · rw [Except.ok.injEq] at hok
      rw [← hok, List.getD_eq_getElem?_getD]
      simp only
      rw [← hE, h2]
      rfl
  have hEl : (E[p]'(by rw [hElen]; exact hpn)).length = width * M := by
    rw [hErow, List.length_append, List.length_replicate, hdn, ← Nat.add_mul]
    congr 1
    omega
  have hent : ∀ k < M, (deviceMesh grid dm p).elements (parts.count p) k = -1 := by
    intro k hk
    simp only [deviceMesh]
    rw [← hM, hel, List.getD_eq_getElem?_getD]
    have hlt2 : parts.count p * M + k < (E[p]'(by rw [hElen]; exact hpn)).length := by
      rw [hEl]
      calc parts.count p * M + k < parts.count p * M + M := by omega
        _ = (parts.count p + 1) * M := by rw [Nat.add_mul, one_mul]
        _ ≤ width * M := Nat.mul_le_mul_right M hcw
    rw [(h6 _ hlt2).1]
    · rfl
    · simp only [hErow]
      rw [List.getElem_append_right (by rw [hdn]; omega)]
      simp
  have hnum : (deviceMesh grid dm p).numElements = width := by
    simp only [deviceMesh]
    rw [hel, h5, hEl, ← hM, Nat.mul_div_cancel _ hM0]
  have hcoord : ∀ k j, (deviceMesh grid dm p).elementCoords (parts.count p) k j = 0 := by
    intro k j
    unfold Mesh.elementCoords
    by_cases hk : k < (deviceMesh grid dm p).nodesPerElem
    · rw [Mesh.gather_apply _ _ _ _ hk, hent k hk, if_neg (by simp)]
    · exact Mesh.gather_outside _ _ _ _ hk
  unfold FESpace.create
  cases hb : FESpace.build (deviceMesh grid dm p) quad with
  | none => rfl
  | some fs =>
    simp only
    rw [if_neg]
    intro hreg
    obtain ⟨_, _, _, _, _, _, _, hm, hnq, _⟩ := FESpace.build_fields hb
    have hwf := FESpace.build_wf hb hpts
    refine hreg (parts.count p) (by rw [hm, hnum]; exact hcw) 0 (by rw [hnq]; exact Nat.pow_pos hquad) ?_
    rw [hwf.det, hm]
    have : jacobian (deviceMesh grid dm p) fs.gradMat (parts.count p) 0 = 0 := by
      ext i j
      simp only [jacobian, Matrix.of_apply, hcoord, zero_mul, Finset.sum_const_zero, Matrix.zero_apply]
    rw [this]
    have : Nonempty (Fin d) := ⟨⟨0, hd⟩⟩
    exact Matrix.det_zero

/-! ### two intervals -/

/-- The points -1 and 1. -/
def linGrid : Nodes1D ℚ := ⟨.newtonCotes, 2, ![-1, 1], ![1, -1]⟩

/-- Simpson's rule. -/
def simpson : Quadrature1D ℚ := ⟨⟨.newtonCotes, 3, ![-1, 0, 1], ![1, -2, 1]⟩, [1 / 3, 4 / 3, 1 / 3]⟩

/-- The intervals `[0, 1]` and `[1, 2]`; the group `"ends"` holds both ends. -/
def twoUnit : Premesh (Fin 1 → ℚ) where
  numNodes := 3
  nodeCoords := fun k _ => k
  elements := [[0, 1], [1, 2]]
  physicalGroups := [("ends", [0, 2])]
  periodicLinks := none

theorem twoUnit_even : EvenPremesh linGrid twoUnit [0, 1] 2 1 where
  links := rfl
  rows := by decide
  range := by decide
  length := rfl
  points := by decide
  devices := by decide
  load := by decide
  lt := by decide
  count := by decide

/-- The hypotheses of the theorems hold for it. -/
example : EvenPremesh linGrid twoUnit [0, 1] 2 1 ∧ (FESpace.create (wholeMesh linGrid twoUnit) simpson).isSome ∧
    (interiorMask (K := ℚ) (finalizeUnpartitioned twoUnit).physicalMasks [("ends", .dirichlet)]).isSome ∧
    (match solvePoisson (wholeMesh linGrid twoUnit) simpson (finalizeUnpartitioned twoUnit).physicalMasks (fun _ => 1)
        [⟨"ends", .dirichlet, some 0⟩] 0 (1 / 100) with
      | .ok u => decide (u 1 = 1 / 2)
      | .error _ => false) = true :=
  ⟨twoUnit_even, by decide +kernel, by decide +kernel, by decide +kernel⟩

/-- The forcing of `C96_tolerance_violated`. -/
def twoUnitForcing : ℕ → ℚ := fun j => if j = 0 then 1 else if j = 1 then 1 / 30 else -1

/-- The two runs of `C96_tolerance_violated`: iterations and value at the inner node, on device 0 and on the whole mesh. -/
def twoUnitRuns : Bool :=
  match finalizePartitioned twoUnit 2 [0, 1], FESpace.create (wholeMesh linGrid twoUnit) simpson,
    interiorMask (finalizeUnpartitioned twoUnit).physicalMasks [("ends", .dirichlet)] with
  | .ok dm, some fs, some mask =>
    match FESpace.create (deviceMesh linGrid dm 0) simpson, FESpace.create (deviceMesh linGrid dm 1) simpson,
      interiorMask (deviceMasks dm 0) [("ends", .dirichlet)], interiorMask (deviceMasks dm 1) [("ends", .dirichlet)] with
    | some fs0, some fs1, some m0, some m1 =>
      match cg (psumDot 2 dm.width)
          (onDevices (fun p => poissonOp (if p = 0 then fs0 else fs1) (if p = 0 then m0 else m1))) (deviceExchange dm)
          (onDevices (fun p => poissonRhs (if p = 0 then fs0 else fs1) (if p = 0 then m0 else m1))
            (fun p i => twoUnitForcing (dm.node p i).toNat)) 0 (1 / 10) 0 20,
        cg (nodeDot 3) (poissonOp fs mask) id (poissonRhs fs mask twoUnitForcing) 0 (1 / 10) 0 20 with
      | some a, some b => decide (dm.node 0 1 = 1 ∧ a.2.2 = 0 ∧ a.1 0 1 = 0 ∧ b.2.2 = 1 ∧ b.1 1 = 1 / 90)
      | _, _ => false
    | _, _, _, _ => false
  | _, _, _ => false

/-- A relative tolerance makes the result depend on the partition, because the bound of `cg` contains the dot product of
the right hand side with itself (cg.py 65-67), and on the devices the right hand side is not summed over the copies of a
node. With one interval of `twoUnit` per device, homogeneous Dirichlet conditions at the ends and relative tolerance
`1 / 10` the contributions to the inner node nearly cancel: the devices stop at the initial guess zero, on the whole mesh
the solution is found. -/
theorem C96_tolerance_violated : ∃ dm fs mask, ∃ fss : ℕ → FESpace ℚ 1, ∃ masks : ℕ → ℕ → ℚ, ∃ a b,
    finalizePartitioned twoUnit 2 [0, 1] = .ok dm ∧ FESpace.create (wholeMesh linGrid twoUnit) simpson = some fs ∧
    interiorMask (finalizeUnpartitioned twoUnit).physicalMasks [("ends", .dirichlet)] = some mask ∧
    (∀ p < 2, FESpace.create (deviceMesh linGrid dm p) simpson = some (fss p) ∧
      interiorMask (deviceMasks dm p) [("ends", .dirichlet)] = some (masks p)) ∧
    cg (psumDot 2 dm.width) (onDevices (fun p => poissonOp (fss p) (masks p))) (deviceExchange dm)
      (onDevices (fun p => poissonRhs (fss p) (masks p)) (fun p i => twoUnitForcing (dm.node p i).toNat))
      0 (1 / 10) 0 20 = some a ∧
    cg (nodeDot 3) (poissonOp fs mask) id (poissonRhs fs mask twoUnitForcing) 0 (1 / 10) 0 20 = some b ∧
    dm.node 0 1 = 1 ∧ a.2.2 = 0 ∧ a.1 0 1 = 0 ∧ b.2.2 = 1 ∧ b.1 1 = 1 / 90 := by
  have h : twoUnitRuns = true := by decide +kernel
  unfold twoUnitRuns at h
  split at h
  swap
  · exact absurd h (by simp)
  rename_i dm fs mask h1 h2 h3
  split at h
  swap
  · exact absurd h (by simp)
  rename_i fs0 fs1 m0 m1 h4 h5 h6 h7
  split at h
  swap
  · exact absurd h (by simp)
  rename_i a b h8 h9
  refine ⟨dm, fs, mask, fun p => if p = 0 then fs0 else fs1, fun p => if p = 0 then m0 else m1, a, b, h1, h2, h3, ?_,
    h8, h9, of_decide_eq_true h⟩
  intro p hp
  interval_cases p
  · exact ⟨h4, h6⟩
  · exact ⟨h5, h7⟩

/-- Three unit intervals. -/
def threeUnit : Premesh (Fin 1 → ℚ) where
  numNodes := 4
  nodeCoords := fun k _ => k
  elements := [[0, 1], [1, 2], [2, 3]]
  physicalGroups := []
  periodicLinks := none

/-- `C96_uneven` applies to two intervals on device 0 and one on device 1. -/
example : ∃ dm, finalizePartitioned threeUnit 2 [0, 0, 1] = .ok dm ∧
    FESpace.create (deviceMesh linGrid dm 1) simpson = none := by
  have h : (match finalizePartitioned threeUnit 2 [0, 0, 1] with
    | .ok _ => true
    | .error _ => false) = true := by decide +kernel
  split at h
  · rename_i dm hdm
    exact ⟨dm, hdm, C96_uneven linGrid (by decide) (by decide) threeUnit (by decide) [0, 0, 1] rfl simpson (by decide) hdm
      (p := 1) (q := 0) ⟨1, by simp, le_refl _⟩ (by decide)⟩
  · exact absurd h (by simp)

end Verif.Core
