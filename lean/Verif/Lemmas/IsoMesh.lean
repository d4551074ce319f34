import Verif.Lemmas.MeshSym

/-!
Symmetries of a mesh that may turn and mirror the elements: besides the elements they permute the nodes and the quadrature points
of an element and the components of vectors, which may change their sign. Fields that correspond to each other under the symmetry
are mapped to corresponding fields by all operators of the Stokes solver.
-/

set_option linter.unusedSectionVars false

namespace Verif.NS

open Verif.Core Verif.Linalg Finset

variable {K : Type*} [Field K] [LinearOrder K] [IsStrictOrderedRing K] {d : ℕ}

/-- A permutation of the numbers below `N`. -/
structure PermOn (N : ℕ) (ν : ℕ → ℕ) : Prop where
  maps : ∀ n < N, ν n < N
  inj : ∀ n < N, ∀ n' < N, ν n = ν n' → n = n'

namespace PermOn

variable {N : ℕ} {ν : ℕ → ℕ}

theorem surj (h : PermOn N ν) {m : ℕ} (hm : m < N) : ∃ m' < N, ν m' = m := by
  have hinj : Function.Injective fun i : Fin N => (⟨ν i, h.maps i i.2⟩ : Fin N) :=
    fun i j e => Fin.ext (h.inj i i.2 j j.2 (by simpa using e))
  obtain ⟨i, hi⟩ := Finite.surjective_of_injective hinj ⟨m, hm⟩
  exact ⟨i, i.2, by simpa using congrArg Fin.val hi⟩

theorem sum (h : PermOn N ν) {V : Type*} [AddCommMonoid V] (f : ℕ → V) :
    ∑ m ∈ range N, f (ν m) = ∑ m ∈ range N, f m := by
  refine Finset.sum_bij (fun m _ => ν m) (fun m hm => mem_range.2 (h.maps m (mem_range.1 hm)))
    (fun m hm m' hm' e => h.inj m (mem_range.1 hm) m' (mem_range.1 hm') e) (fun m hm => ?_) (fun _ _ => rfl)
  obtain ⟨m', hm', he⟩ := h.surj (mem_range.1 hm)
  exact ⟨m', mem_range.2 hm', he⟩

end PermOn

/-- A symmetry of the mesh: `τ` permutes the elements, `ν` the nodes of an element. -/
structure IsoMesh (mesh : Mesh K d) (τ ν : ℕ → ℕ) : Prop where
  inRange : ∀ m < mesh.numElements, ∀ n < mesh.nodesPerElem, 0 ≤ mesh.elements m n ∧ mesh.elements m n < mesh.numNodes
  cover : ∀ i < mesh.numNodes, ∃ m < mesh.numElements, ∃ n < mesh.nodesPerElem, mesh.elements m n = i
  elems : PermOn mesh.numElements τ
  locals : PermOn mesh.nodesPerElem ν
  same : ∀ m < mesh.numElements, ∀ n < mesh.nodesPerElem, ∀ m' < mesh.numElements, ∀ n' < mesh.nodesPerElem,
    (SameNode mesh (nodeAt mesh (τ m) (ν n)) (nodeAt mesh (τ m') (ν n')) ↔ SameNode mesh (nodeAt mesh m n) (nodeAt mesh m' n'))

variable {mesh : Mesh K d} {τ ν : ℕ → ℕ}

namespace IsoMesh

/-- The trivial symmetry. -/
theorem base (h : IsoMesh mesh τ ν) : MeshSym mesh id :=
  ⟨h.inRange, h.cover, fun _ hm => hm, fun _ _ _ _ e => e, fun _ _ _ _ _ _ _ _ => Iff.rfl⟩

theorem nodeAt_lt (h : IsoMesh mesh τ ν) {m n : ℕ} (hm : m < mesh.numElements) (hn : n < mesh.nodesPerElem) :
    nodeAt mesh m n < mesh.numNodes := h.base.nodeAt_lt hm hn

theorem nodeAt_cast (h : IsoMesh mesh τ ν) {m n : ℕ} (hm : m < mesh.numElements) (hn : n < mesh.nodesPerElem) :
    mesh.elements m n = (nodeAt mesh m n : ℕ) := h.base.nodeAt_cast hm hn

theorem image_lt (h : IsoMesh mesh τ ν) {m n : ℕ} (hm : m < mesh.numElements) (hn : n < mesh.nodesPerElem) :
    nodeAt mesh (τ m) (ν n) < mesh.numNodes := h.nodeAt_lt (h.elems.maps m hm) (h.locals.maps n hn)

theorem gather (h : IsoMesh mesh τ ν) (u : ℕ → K) {m n : ℕ} (hm : m < mesh.numElements) (hn : n < mesh.nodesPerElem) :
    mesh.gather u m n = u (nodeAt mesh m n) := h.base.gather u hm hn

theorem covered (h : IsoMesh mesh τ ν) {i : ℕ} (hi : i < mesh.numNodes) :
    ∃ m < mesh.numElements, ∃ n < mesh.nodesPerElem, nodeAt mesh m n = i := h.base.covered hi

/-- Sums over the places of the elements can be taken in the permuted order. -/
theorem sum (h : IsoMesh mesh τ ν) (f : ℕ → ℕ → K) :
    ∑ m ∈ range mesh.numElements, ∑ n ∈ range mesh.nodesPerElem, f (τ m) (ν n) =
      ∑ m ∈ range mesh.numElements, ∑ n ∈ range mesh.nodesPerElem, f m n := by
  rw [← h.elems.sum (fun m => ∑ n ∈ range mesh.nodesPerElem, f m n)]
  exact sum_congr rfl fun m _ => h.locals.sum fun n => f (τ m) n

end IsoMesh

/-! ### corresponding fields -/

/-- `u` and `v` are constant on copies, and `u` is `s` times `v` moved by the symmetry. -/
structure IsoField (mesh : Mesh K d) (τ ν : ℕ → ℕ) (s : K) (u v : ℕ → K) : Prop where
  left : Continuous mesh u
  right : Continuous mesh v
  moved : ∀ m < mesh.numElements, ∀ n < mesh.nodesPerElem, u (nodeAt mesh (τ m) (ν n)) = s * v (nodeAt mesh m n)

/-- The same for values that are to be summed over copies. -/
def IsoDual (mesh : Mesh K d) (τ ν : ℕ → ℕ) (s : K) (f g : ℕ → K) : Prop :=
  IsoField mesh τ ν s (mesh.exchange f) (mesh.exchange g)

variable {s s' : K}

namespace IsoField

variable {u v u' v' f g f' g' : ℕ → K}

theorem congr (h : IsoMesh mesh τ ν) (H : IsoField mesh τ ν s u v) (hu : ∀ i < mesh.numNodes, u' i = u i)
    (hv : ∀ i < mesh.numNodes, v' i = v i) : IsoField mesh τ ν s u' v' where
  left i hi j hj hs := by rw [hu i hi, hu j hj]; exact H.left i hi j hj hs
  right i hi j hj hs := by rw [hv i hi, hv j hj]; exact H.right i hi j hj hs
  moved m hm n hn := by rw [hu _ (h.image_lt hm hn), hv _ (h.nodeAt_lt hm hn)]; exact H.moved m hm n hn

/-- Linear combinations. -/
theorem lin (H : IsoField mesh τ ν s u v) (H' : IsoField mesh τ ν s u' v') (a b : K) :
    IsoField mesh τ ν s (fun i => a * u i + b * u' i) (fun i => a * v i + b * v' i) where
  left i hi j hj hs := by dsimp only; rw [H.left i hi j hj hs, H'.left i hi j hj hs]
  right i hi j hj hs := by dsimp only; rw [H.right i hi j hj hs, H'.right i hi j hj hs]
  moved m hm n hn := by rw [H.moved m hm n hn, H'.moved m hm n hn]; ring

theorem smul (H : IsoField mesh τ ν s u v) (a : K) : IsoField mesh τ ν s (fun i => a * u i) (fun i => a * v i) where
  left i hi j hj hs := by dsimp only; rw [H.left i hi j hj hs]
  right i hi j hj hs := by dsimp only; rw [H.right i hi j hj hs]
  moved m hm n hn := by rw [H.moved m hm n hn]; ring

/-- Products. -/
theorem mul (H : IsoField mesh τ ν s u v) (H' : IsoField mesh τ ν s' u' v') :
    IsoField mesh τ ν (s * s') (fun i => u i * u' i) (fun i => v i * v' i) where
  left i hi j hj hs := by dsimp only; rw [H.left i hi j hj hs, H'.left i hi j hj hs]
  right i hi j hj hs := by dsimp only; rw [H.right i hi j hj hs, H'.right i hi j hj hs]
  moved m hm n hn := by rw [H.moved m hm n hn, H'.moved m hm n hn]; ring

/-- Functions of the values of a field that keeps its sign. -/
theorem map (H : IsoField mesh τ ν 1 u v) (φ : K → K) : IsoField mesh τ ν 1 (fun i => φ (u i)) (fun i => φ (v i)) where
  left i hi j hj hs := by dsimp only; rw [H.left i hi j hj hs]
  right i hi j hj hs := by dsimp only; rw [H.right i hi j hj hs]
  moved m hm n hn := by rw [H.moved m hm n hn, one_mul, one_mul]

theorem zero : IsoField mesh τ ν s 0 0 := ⟨fun _ _ _ _ _ => rfl, fun _ _ _ _ _ => rfl, fun _ _ _ _ => by simp⟩

theorem const (c : K) : IsoField mesh τ ν 1 (fun _ => c) (fun _ => c) :=
  ⟨fun _ _ _ _ _ => rfl, fun _ _ _ _ _ => rfl, fun _ _ _ _ => (one_mul c).symm⟩

theorem gather (h : IsoMesh mesh τ ν) (H : IsoField mesh τ ν s u v) {m n : ℕ} (hm : m < mesh.numElements)
    (hn : n < mesh.nodesPerElem) : mesh.gather u (τ m) (ν n) = s * mesh.gather v m n := by
  rw [h.gather u (h.elems.maps m hm) (h.locals.maps n hn), h.gather v hm hn, H.moved m hm n hn]

/-- The symmetric number of places where a node occurs in the elements. -/
theorem count (h : IsoMesh mesh τ ν) {m n : ℕ} (hm : m < mesh.numElements) (hn : n < mesh.nodesPerElem) (a b : ℕ → ℕ → K)
    (hab : ∀ m < mesh.numElements, ∀ n < mesh.nodesPerElem, a (τ m) (ν n) = s * b m n) :
    (∑ m' ∈ range mesh.numElements, ∑ n' ∈ range mesh.nodesPerElem,
      if SameNode mesh (nodeAt mesh (τ m) (ν n)) (nodeAt mesh m' n') then a m' n' else 0) =
    s * ∑ m' ∈ range mesh.numElements, ∑ n' ∈ range mesh.nodesPerElem,
      if SameNode mesh (nodeAt mesh m n) (nodeAt mesh m' n') then b m' n' else 0 := by
  rw [← h.sum, mul_sum]
  refine sum_congr rfl fun m' hm' => ?_
  rw [mul_sum]
  refine sum_congr rfl fun n' hn' => ?_
  rw [mem_range] at hm' hn'
  rw [hab m' hm' n' hn', if_congr (h.same m hm n hn m' hm' n' hn') rfl rfl]
  split_ifs
  · rfl
  · rw [mul_zero]

end IsoField

namespace IsoDual

variable {u v u' v' f g f' g' : ℕ → K}

/-- Values scattered from corresponding elements. -/
theorem scatter (h : IsoMesh mesh τ ν) {a b : ℕ → ℕ → K}
    (hab : ∀ m < mesh.numElements, ∀ n < mesh.nodesPerElem, a (τ m) (ν n) = s * b m n) :
    IsoDual mesh τ ν s (mesh.scatter a) (mesh.scatter b) where
  left _ hi _ hj hs := exchange_same mesh _ hi hj hs
  right _ hi _ hj hs := exchange_same mesh _ hi hj hs
  moved m hm n hn := by
    rw [h.base.exchange_scatter _ (h.image_lt hm hn), h.base.exchange_scatter _ (h.nodeAt_lt hm hn)]
    exact IsoField.count h hm hn a b hab

theorem lin (h : IsoMesh mesh τ ν) (H : IsoDual mesh τ ν s f g) (H' : IsoDual mesh τ ν s f' g') (a b : K) :
    IsoDual mesh τ ν s (fun i => a * f i + b * f' i) (fun i => a * g i + b * g' i) := by
  have e : ∀ (f f' : ℕ → K), ∀ i < mesh.numNodes, mesh.exchange (fun i => a * f i + b * f' i) i =
      a * mesh.exchange f i + b * mesh.exchange f' i := by
    intro f f' i hi
    rw [exchange_sum mesh _ i hi, exchange_sum mesh _ i hi, exchange_sum mesh _ i hi, mul_sum, mul_sum, ← sum_add_distrib]
    refine sum_congr rfl fun j _ => ?_
    split_ifs <;> ring
  exact (IsoField.lin H H' a b).congr h (e f f') (e g g')

theorem mul (h : IsoMesh mesh τ ν) (H : IsoField mesh τ ν s u v) (H' : IsoDual mesh τ ν s' f g) :
    IsoDual mesh τ ν (s * s') (fun i => u i * f i) (fun i => v i * g i) :=
  (IsoField.mul H H').congr h (fun i hi => exchange_mul mesh u f H.left i hi) (fun i hi => exchange_mul mesh v g H.right i hi)

/-- Corresponding pairs have the same scalar product up to the signs. -/
theorem dot (h : IsoMesh mesh τ ν) (H : IsoField mesh τ ν s u v) (H' : IsoDual mesh τ ν s' f g) :
    ∑ i ∈ range mesh.numNodes, u i * f i = s * s' * ∑ i ∈ range mesh.numNodes, v i * g i := by
  let cnt : ℕ → K := fun i => ∑ m ∈ range mesh.numElements, ∑ n ∈ range mesh.nodesPerElem,
    if SameNode mesh i (nodeAt mesh m n) then (1 : K) else 0
  have hpos : ∀ i < mesh.numNodes, cnt i ≠ 0 := by
    intro i hi
    obtain ⟨m, hm, n, hn, he⟩ := h.covered hi
    refine ne_of_gt (sum_pos' (fun m _ => sum_nonneg fun n _ => ?_) ⟨m, mem_range.2 hm,
      sum_pos' (fun n _ => ?_) ⟨n, mem_range.2 hn, ?_⟩⟩)
    · split_ifs <;> simp
    · split_ifs <;> simp
    · rw [if_pos (by rw [he]; exact SameNode.refl _ _)]
      exact one_pos
  have hcont : ∀ i j, SameNode mesh i j → cnt i = cnt j := by
    intro i j hs
    refine sum_congr rfl fun m _ => sum_congr rfl fun n _ => if_congr ⟨fun h1 => hs.symm.trans h1, fun h1 => hs.trans h1⟩ rfl rfl
  have key : ∀ (u f : ℕ → K), Continuous mesh u → ∑ i ∈ range mesh.numNodes, u i * f i =
      ∑ m ∈ range mesh.numElements, ∑ n ∈ range mesh.nodesPerElem,
        u (nodeAt mesh m n) * mesh.exchange f (nodeAt mesh m n) / cnt (nodeAt mesh m n) := by
    intro u f hu
    have e1 : ∀ i ∈ range mesh.numNodes, u i * f i = ∑ m ∈ range mesh.numElements, ∑ n ∈ range mesh.nodesPerElem,
        if SameNode mesh (nodeAt mesh m n) i then u (nodeAt mesh m n) * f i / cnt (nodeAt mesh m n) else 0 := by
      intro i hi
      rw [mem_range] at hi
      have e2 : u i * f i = ∑ m ∈ range mesh.numElements, ∑ n ∈ range mesh.nodesPerElem,
          u i * f i / cnt i * (if SameNode mesh i (nodeAt mesh m n) then (1 : K) else 0) := by
        simp only [← mul_sum]
        exact (div_mul_cancel₀ _ (hpos i hi)).symm
      rw [e2]
      refine sum_congr rfl fun m hm => sum_congr rfl fun n hn => ?_
      rw [mem_range] at hm hn
      by_cases hs : SameNode mesh i (nodeAt mesh m n)
      · rw [if_pos hs, if_pos hs.symm, mul_one, hu i hi _ (h.nodeAt_lt hm hn) hs, hcont _ _ hs]
      · rw [if_neg hs, if_neg (fun h1 => hs h1.symm), mul_zero]
    rw [sum_congr rfl e1, sum_comm]
    refine sum_congr rfl fun m hm => ?_
    rw [sum_comm]
    refine sum_congr rfl fun n hn => ?_
    rw [mem_range] at hm hn
    rw [exchange_sum mesh f _ (h.nodeAt_lt hm hn), mul_sum, sum_div]
    refine sum_congr rfl fun i _ => ?_
    split_ifs <;> simp
  rw [key u f H.left, key v g H.right, ← h.sum, mul_sum]
  refine sum_congr rfl fun m hm => ?_
  rw [mul_sum]
  refine sum_congr rfl fun n hn => ?_
  rw [mem_range] at hm hn
  have e3 : cnt (nodeAt mesh (τ m) (ν n)) = cnt (nodeAt mesh m n) := by
    have := IsoField.count (s := 1) h hm hn (fun _ _ => 1) (fun _ _ => 1) fun _ _ _ _ => (one_mul 1).symm
    rwa [one_mul] at this
  rw [H.moved m hm n hn, show mesh.exchange f (nodeAt mesh (τ m) (ν n)) = _ from H'.moved m hm n hn, e3]
  ring

end IsoDual

/-! ### spaces -/

/-- The signs of the axes. -/
def Signs (ε : Fin d → K) : Prop := ∀ k, ε k * ε k = 1

/-- The symmetry keeps interpolation, derivatives, weights and Jacobians of the space; `ρ` permutes the quadrature points, axis `k`
becomes axis `π k` with the sign `ε k`. -/
structure IsoSpace (fs : FESpace K d) (τ ν ρ : ℕ → ℕ) (π : Equiv.Perm (Fin d)) (ε : Fin d → K) : Prop where
  sym : IsoMesh fs.mesh τ ν
  wf : fs.WF
  quad : PermOn fs.numQuad ρ
  signs : Signs ε
  interp : ∀ a b : ℕ → K, (∀ n < fs.mesh.nodesPerElem, a (ν n) = b n) → ∀ q < fs.numQuad, fs.interpolate a (ρ q) = fs.interpolate b q
  grad : ∀ a b : ℕ → K, (∀ n < fs.mesh.nodesPerElem, a (ν n) = b n) → ∀ q < fs.numQuad, ∀ i,
    (fs.gradMat (π i)).apply a (ρ q) = ε i * (fs.gradMat i).apply b q
  weights : ∀ q < fs.numQuad, fs.weights.getD (ρ q) 0 = fs.weights.getD q 0
  det : ∀ m < fs.mesh.numElements, ∀ q < fs.numQuad, fs.jacdets (τ m) (ρ q) = fs.jacdets m q
  inv : ∀ m < fs.mesh.numElements, ∀ q < fs.numQuad, ∀ i j, fs.invjacs (τ m) (ρ q) (π i) (π j) = ε i * ε j * fs.invjacs m q i j

/-- Corresponding local arrays. -/
def IsoLocal (fs : FESpace K d) (τ ν : ℕ → ℕ) (π : Equiv.Perm (Fin d)) (η : Fin d → K) (a b : ℕ → ℕ → Fin d → K) : Prop :=
  ∀ m < fs.mesh.numElements, ∀ n < fs.mesh.nodesPerElem, ∀ k, a (τ m) (ν n) (π k) = η k * b m n k

namespace IsoSpace

variable {fs : FESpace K d} {ρ : ℕ → ℕ} {π : Equiv.Perm (Fin d)} {ε η : Fin d → K} {a b : ℕ → ℕ → Fin d → K}

theorem integrate (h : IsoSpace fs τ ν ρ π ε) {w w' : QFun K}
    (hw : ∀ m < fs.mesh.numElements, ∀ q < fs.numQuad, w (τ m) (ρ q) = s * w' m q) : integrate fs w = s * integrate fs w' := by
  unfold Verif.Core.integrate
  rw [← h.sym.elems.sum, mul_sum]
  refine sum_congr rfl fun m hm => ?_
  rw [← h.quad.sum, mul_sum]
  refine sum_congr rfl fun q hq => ?_
  rw [mem_range] at hm hq
  rw [hw m hm q hq, h.det m hm q hq, h.weights q hq]
  ring

theorem vectorFn (h : IsoSpace fs τ ν ρ π ε) (hab : IsoLocal fs τ ν π η a b) {m q : ℕ} (hm : m < fs.mesh.numElements)
    (hq : q < fs.numQuad) (k : Fin d) : vectorFn fs a (τ m) (ρ q) (π k) = η k * vectorFn fs b m q k := by
  unfold Verif.Core.vectorFn
  rw [← h.wf.smul]
  exact h.interp _ _ (fun n hn => hab m hm n hn k) q hq

theorem vectorGrad (h : IsoSpace fs τ ν ρ π ε) (hab : IsoLocal fs τ ν π η a b) {m q : ℕ} (hm : m < fs.mesh.numElements)
    (hq : q < fs.numQuad) (j k : Fin d) :
    vectorGrad fs a (τ m) (ρ q) (π j) (π k) = ε j * η k * vectorGrad fs b m q j k := by
  unfold Verif.Core.vectorGrad elemGrad
  rw [← Equiv.sum_comp π, mul_sum]
  refine sum_congr rfl fun i _ => ?_
  rw [h.grad (fun n => a (τ m) n (π k)) (η k • fun n => b m n k) (fun n hn => hab m hm n hn k) q hq i, NMat.apply_smul,
    h.inv m hm q hq j i]
  linear_combination ε j * η k * ((fs.gradMat i).apply (fun n => b m n k) q) * fs.invjacs m q j i * h.signs i

theorem divFn (h : IsoSpace fs τ ν ρ π ε) (hab : IsoLocal fs τ ν π (fun k => s * ε k) a b) {m q : ℕ} (hm : m < fs.mesh.numElements)
    (hq : q < fs.numQuad) : divFn fs a (τ m) (ρ q) = s * divFn fs b m q := by
  unfold Verif.Core.divFn
  rw [← Equiv.sum_comp π, mul_sum]
  refine sum_congr rfl fun j _ => ?_
  rw [h.vectorGrad hab hm hq j j]
  linear_combination s * Verif.Core.vectorGrad fs b m q j j * h.signs j

theorem scalarFn (h : IsoSpace fs τ ν ρ π ε) {a b : ℕ → ℕ → K}
    (hab : ∀ m < fs.mesh.numElements, ∀ n < fs.mesh.nodesPerElem, a (τ m) (ν n) = s * b m n)
    {m q : ℕ} (hm : m < fs.mesh.numElements) (hq : q < fs.numQuad) : scalarFn fs a (τ m) (ρ q) = s * scalarFn fs b m q := by
  unfold Verif.Core.scalarFn
  rw [← h.wf.smul]
  exact h.interp _ _ (fun n hn => hab m hm n hn) q hq

theorem unit (h : IsoSpace fs τ ν ρ π ε) {m m' n n' : ℕ} (hm : m < fs.mesh.numElements) (hm' : m' < fs.mesh.numElements)
    (hn : n < fs.mesh.nodesPerElem) (hn' : n' < fs.mesh.nodesPerElem) :
    (unitLocal (τ m) (ν n) (τ m') (ν n') : K) = unitLocal m n m' n' := by
  unfold unitLocal
  exact if_congr ⟨fun e => ⟨h.sym.elems.inj m' hm' m hm e.1, h.sym.locals.inj n' hn' n hn e.2⟩, fun e => by rw [e.1, e.2]; simp⟩ rfl rfl

/-- Covectors of corresponding forms. -/
theorem vectorCovector (h : IsoSpace fs τ ν ρ π ε) (hη : Signs η) {F F' : (ℕ → ℕ → Fin d → K) → K}
    (hF : ∀ a b t, IsoLocal fs τ ν π (fun k => t * η k) a b → F a = t * F' b) :
    IsoLocal fs τ ν π η (vectorCovector F) (vectorCovector F') := by
  intro m hm n hn k
  refine hF _ _ (η k) fun m' hm' n' hn' k' => ?_
  dsimp only
  rw [h.unit hm hm' hn hn']
  by_cases hk : k' = k
  · rw [if_pos (by rw [hk]), if_pos hk, hk, hη k, one_mul]
  · rw [if_neg (fun e => hk (π.injective e)), if_neg hk, mul_zero]

theorem scalarCovector (h : IsoSpace fs τ ν ρ π ε) {F F' : (ℕ → ℕ → K) → K}
    (hF : ∀ a b : ℕ → ℕ → K, (∀ m < fs.mesh.numElements, ∀ n < fs.mesh.nodesPerElem, a (τ m) (ν n) = 1 * b m n) → F a = s * F' b) :
    ∀ m < fs.mesh.numElements, ∀ n < fs.mesh.nodesPerElem, scalarCovector F (τ m) (ν n) = s * scalarCovector F' m n := by
  intro m hm n hn
  exact hF _ _ fun m' hm' n' hn' => by rw [one_mul]; exact h.unit hm hm' hn hn'

end IsoSpace

end Verif.NS
