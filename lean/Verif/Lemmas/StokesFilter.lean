import Verif.Lemmas.StokesSolve

/-! The filter of the Stokes step: its local matrix, and the spaces it preserves. -/

set_option linter.unusedSectionVars false

namespace Verif.NS

open Verif.Core Verif.Linalg Verif.Spec

variable {K : Type*} [Field K] [LinearOrder K] {d : ℕ}

theorem apply_basis (A : NMat K) {N d : ℕ} (hc : A.cols = N ^ d) (x : ℕ → K) (i : ℕ) :
    A.apply x i = ∑ j ∈ Finset.range (N ^ d), x j *
      A.apply (fun l => ∏ k ∈ Finset.range d, if digit N d k l = digit N d k j then (1 : K) else 0) i := by
  unfold NMat.apply
  rw [hc]
  simp only [Finset.mul_sum]
  rw [Finset.sum_comm]
  refine Finset.sum_congr rfl fun l hl => ?_
  rw [Finset.sum_eq_single l]
  · rw [Finset.prod_eq_one (fun k _ => if_pos rfl)]; ring
  · intro j hj hne
    have : ∃ k < d, digit N d k l ≠ digit N d k j := by
      by_contra h
      push Not at h
      exact hne (digit_ext (Finset.mem_range.mp hj) (Finset.mem_range.mp hl) fun k hk => (h k hk).symm)
    obtain ⟨k, hk, hne⟩ := this
    rw [Finset.prod_eq_zero (Finset.mem_range.mpr hk) (if_neg hne)]
    ring
  · intro h; exact absurd hl h

/-- The one dimensional filter. -/
def filter1 {N N' : ℕ} (L : Matrix (Fin N') (Fin N) K) (H : Matrix (Fin N) (Fin N') K) (r a : ℕ) : K :=
  if h : r < N ∧ a < N then (H * L) ⟨r, h.1⟩ ⟨a, h.2⟩ else 0

/-- The tensor product filter. -/
theorem filter_local {N N' : ℕ} (hN : 0 < N) (hN' : 0 < N') (hd : 1 ≤ d) (L : Matrix (Fin N') (Fin N) K)
    (H : Matrix (Fin N) (Fin N') K) :
    ∃ Ld Hd, interpMatrix d L = some Ld ∧ interpMatrix d H = some Hd ∧ ∀ x, ∀ n < N ^ d,
      Hd.apply (Ld.apply x) n = ∑ j ∈ Finset.range (N ^ d), x j *
        ∏ k ∈ Finset.range d, filter1 L H (digit N d k n) (digit N d k j) := by
  obtain ⟨Ld, hLd, hLr, hLc, hL⟩ := C34_products hN' hN hd L
  obtain ⟨Hd, hHd, hHr, hHc, hH⟩ := C34_products hN hN' hd H
  refine ⟨Ld, Hd, hLd, hHd, fun x n hn => ?_⟩
  have h1 : ∀ l < N' ^ d, Ld.apply x l = ∑ j ∈ Finset.range (N ^ d), x j *
      ∏ k ∈ Finset.range d, at0 (L.mulVec (fun a : Fin N => if (a : ℕ) = digit N d k j then (1 : K) else 0)) (digit N' d k l) := by
    intro l hl
    rw [apply_basis Ld hLc]
    refine Finset.sum_congr rfl fun j _ => ?_
    rw [hL (fun k a => if a = digit N d k j then 1 else 0) l hl]
  have h2 : Hd.apply (Ld.apply x) n = ∑ j ∈ Finset.range (N ^ d), x j * Hd.apply (fun l => ∏ k ∈ Finset.range d,
      at0 (L.mulVec (fun a : Fin N => if (a : ℕ) = digit N d k j then (1 : K) else 0)) (digit N' d k l)) n := by
    have key : ∀ y, Hd.apply y n = ∑ l ∈ Finset.range (N' ^ d), Hd.entry n l * y l := by
      intro y; unfold NMat.apply; rw [hHc]
    simp only [key, Finset.mul_sum]
    rw [Finset.sum_comm]
    refine Finset.sum_congr rfl fun l hl => ?_
    rw [h1 l (Finset.mem_range.mp hl), Finset.mul_sum]
    exact Finset.sum_congr rfl fun j _ => by ring
  rw [h2]
  refine Finset.sum_congr rfl fun j _ => ?_
  congr 1
  rw [hH (fun k l => at0 (L.mulVec (fun a : Fin N => if (a : ℕ) = digit N d k j then (1 : K) else 0)) l) n hn]
  refine Finset.prod_congr rfl fun k _ => ?_
  have hnk := Verif.Common.digit_lt N d k n hN
  have hjk := Verif.Common.digit_lt N d k j hN
  rw [at0, dif_pos hnk, filter1, dif_pos ⟨hnk, hjk⟩]
  simp only [Matrix.mulVec, dotProduct, Matrix.mul_apply]
  refine Finset.sum_congr rfl fun l _ => ?_
  congr 1
  rw [at0, dif_pos l.2]
  change ∑ a : Fin N, L l a * (if (a : ℕ) = digit N d k j then (1 : K) else 0) = _
  rw [Finset.sum_eq_single (⟨digit N d k j, hjk⟩ : Fin N)]
  · simp
  · intro a _ hne
    rw [if_neg (fun h => hne (Fin.ext h)), mul_zero]
  · intro h; exact absurd (Finset.mem_univ _) h

/-- Point `r` of the fine grid is also a point of the coarse grid. -/
def SharedPoint (grid low : Nodes1D K) (r : ℕ) : Prop := ∃ (h : r < grid.numPoints) (c : Fin low.numPoints), low.value c = grid.value ⟨r, h⟩

/-- At shared points the one dimensional filter is the identity. -/
theorem filter1_shared (grid low : Nodes1D K) (hw : TrueWeights grid.bary grid.value) (hi : Function.Injective grid.value)
    (hw' : TrueWeights low.bary low.value) (hi' : Function.Injective low.value)
    {L : Matrix (Fin low.numPoints) (Fin grid.numPoints) K} {H : Matrix (Fin grid.numPoints) (Fin low.numPoints) K}
    (hL : interpMatrix1d grid.bary grid.value low.value = some L) (hH : interpMatrix1d low.bary low.value grid.value = some H)
    (r a : ℕ) (hr : SharedPoint grid low r) (ha : a < grid.numPoints) : filter1 L H r a = if r = a then 1 else 0 := by
  obtain ⟨hr, c, hc⟩ := hr
  rw [filter1, dif_pos ⟨hr, ha⟩]
  have h1 := C31_nodal_values low.bary low.value (hw'.ne_zero hi') hi' grid.value H hH (fun l : Fin low.numPoints => L l ⟨a, ha⟩) ⟨r, hr⟩ c hc.symm
  have h2 := C31_nodal_values grid.bary grid.value (hw.ne_zero hi) hi low.value L hL (Pi.single ⟨a, ha⟩ 1) c ⟨r, hr⟩ hc
  rw [Matrix.mulVec_single_one] at h2
  rw [Matrix.mul_apply]
  refine Eq.trans h1 (Eq.trans h2 ?_)
  rw [Pi.single_apply]
  simp [Fin.ext_iff]

/-- What the filter needs of the coarse grid. -/
structure FilterSetup (mesh : Mesh K d) (low : Nodes1D K) : Prop where
  dim : 1 ≤ d
  points : 0 < mesh.grid.numPoints
  lowPoints : 0 < low.numPoints
  weights : TrueWeights mesh.grid.bary mesh.grid.value
  nodes : Function.Injective mesh.grid.value
  lowWeights : TrueWeights low.bary low.value
  lowNodes : Function.Injective low.value

variable {sem : StokesSEM K d} {low : Nodes1D K}

/-- The local filter matrix. -/
noncomputable def filterEntry (mesh : Mesh K d) (low : Nodes1D K) (n j : ℕ) : K :=
  match interpMatrix1d mesh.grid.bary mesh.grid.value low.value, interpMatrix1d low.bary low.value mesh.grid.value with
  | some L, some H => ∏ k ∈ Finset.range d, filter1 L H (digit mesh.grid.numPoints d k n) (digit mesh.grid.numPoints d k j)
  | _, _ => 0

theorem filter_eq (F : FilterSetup sem.vspace.mesh low) (alpha : K) (u : Vel K d) :
    ∃ w, sem.filter low alpha u = some w ∧ ∃ loc : ℕ → ℕ → Fin d → K,
      (∀ m, ∀ n < sem.vspace.mesh.nodesPerElem, ∀ k, loc m n k = ∑ j ∈ Finset.range sem.vspace.mesh.nodesPerElem,
        vGather sem.vspace.mesh u m j k * filterEntry sem.vspace.mesh low n j) ∧
      ∀ p k, w p k = (1 - alpha) * u p k + alpha * ((1 / sem.diagQqt p) * vScatter sem.vspace.mesh loc p k) := by
  have hL := interpMatrix1d_eq _ _ F.weights F.nodes low.value
  have hH := interpMatrix1d_eq _ _ F.lowWeights F.lowNodes sem.vspace.mesh.grid.value
  obtain ⟨Ld, Hd, hLd, hHd, hloc⟩ := filter_local F.points F.lowPoints F.dim
    (Matrix.of fun a i => (Lagrange.basis Finset.univ sem.vspace.mesh.grid.value i).eval (low.value a))
    (Matrix.of fun a i => (Lagrange.basis Finset.univ low.value i).eval (sem.vspace.mesh.grid.value a))
  unfold StokesSEM.filter
  simp only [hL, hH, hLd, hHd]
  refine ⟨_, rfl, _, ?_, fun p k => rfl⟩
  intro m n hn k
  rw [hloc _ n hn]
  unfold filterEntry
  rw [hL, hH]
  rfl

/-- With `alpha = 0` the filter does nothing. -/
theorem filter_zero (F : FilterSetup sem.vspace.mesh low) (u : Vel K d) : sem.filter low 0 u = some u := by
  obtain ⟨w, hw, loc, _, h⟩ := filter_eq (sem := sem) F 0 u
  rw [hw]
  congr 1
  funext p k
  rw [h]
  ring

theorem filterEntry_face (F : FilterSetup sem.vspace.mesh low) {n j k : ℕ} (hk : k < d)
    (hs : SharedPoint sem.vspace.mesh.grid low (digit sem.vspace.mesh.grid.numPoints d k n))
    (hne : digit sem.vspace.mesh.grid.numPoints d k j ≠ digit sem.vspace.mesh.grid.numPoints d k n) :
    filterEntry sem.vspace.mesh low n j = 0 := by
  have hL := interpMatrix1d_eq _ _ F.weights F.nodes low.value
  have hH := interpMatrix1d_eq _ _ F.lowWeights F.lowNodes sem.vspace.mesh.grid.value
  unfold filterEntry
  rw [hL, hH]
  simp only
  refine Finset.prod_eq_zero (Finset.mem_range.mpr hk) ?_
  rw [filter1_shared sem.vspace.mesh.grid low F.weights F.nodes F.lowWeights F.lowNodes hL hH _ _ hs
    (Verif.Common.digit_lt _ _ _ _ F.points), if_neg (fun h => hne h.symm)]

/-- The face of local node `n`: local nodes with the same digits wherever the digit of `n` is a shared point. -/
def SameFace (mesh : Mesh K d) (low : Nodes1D K) (n j : ℕ) : Prop :=
  ∀ k < d, SharedPoint mesh.grid low (digit mesh.grid.numPoints d k n) →
    digit mesh.grid.numPoints d k j = digit mesh.grid.numPoints d k n

/-- Zero nodes come in whole faces. -/
def FaceClosed (mesh : Mesh K d) (low : Nodes1D K) (Z : ℕ → Prop) : Prop :=
  ∀ m < mesh.numElements, ∀ n < mesh.nodesPerElem, ∀ j < mesh.nodesPerElem, ∀ p q : ℕ, mesh.elements m n = p →
    mesh.elements m j = q → SameFace mesh low n j → Z p → Z q

theorem readPos_nat {N p : ℕ} (h : p < N) : readPos N (p : ℤ) = p := by
  unfold readPos
  rw [if_neg (by omega)]
  omega

/-- The filter keeps the zeros of fields that vanish on whole faces. -/
theorem filter_VSpace (F : FilterSetup sem.vspace.mesh low) (hr : sem.vspace.mesh.InRange)
    (hface : FaceClosed sem.vspace.mesh low (fun p => sem.mask p = 0)) (alpha : K) (u : Vel K d) (hu : u ∈ VSpace sem)
    (w : Vel K d) (hw : sem.filter low alpha u = some w) : w ∈ VSpace sem := by
  obtain ⟨w', hw', loc, hloc, h⟩ := filter_eq (sem := sem) F alpha u
  rw [hw, Option.some.injEq] at hw'
  subst hw'
  intro p hp
  funext k
  rw [h, hu p hp]
  by_cases hlt : p < sem.numV
  · have hm := hp.resolve_left (by omega)
    have : vScatter sem.vspace.mesh loc p k = 0 := by
      unfold vScatter
      rw [Mesh.scatter_apply]
      refine Finset.sum_eq_zero fun m hm' => Finset.sum_eq_zero fun n hn => ?_
      rw [Finset.mem_range] at hm' hn
      split
      · rename_i hwp
        rcases hr m hm' n hn with he | ⟨he0, he1⟩
        · rw [he]; simp [maskOf, sentinel]
        · have hep : sem.vspace.mesh.elements m n = p := by
            obtain ⟨a, ha⟩ := Int.eq_ofNat_of_zero_le he0
            rw [ha] at hwp he1 ⊢
            rw [writePos_nat (by exact_mod_cast he1), Option.some.injEq] at hwp
            rw [hwp]
          rw [hloc m n hn, Finset.sum_eq_zero, mul_zero]
          intro j hj
          rw [Finset.mem_range] at hj
          by_cases hsf : SameFace sem.vspace.mesh low n j
          · have : vGather sem.vspace.mesh u m j k = 0 := by
              unfold vGather
              rw [Mesh.gather_apply _ _ _ _ hj]
              split
              · rename_i hne
                obtain ⟨h0, h1⟩ := (hr m hm' j hj).resolve_left hne
                obtain ⟨a, ha⟩ := Int.eq_ofNat_of_zero_le h0
                have := hface m hm' n hn j hj p a hep ha hsf hm
                rw [ha] at h1 ⊢
                rw [readPos_nat (by exact_mod_cast h1), hu a (Or.inr this)]
                rfl
              · rfl
            rw [this, zero_mul]
          · unfold SameFace at hsf
            push Not at hsf
            obtain ⟨k', hk', hs, hne⟩ := hsf
            rw [filterEntry_face F hk' hs hne, mul_zero]
      · rfl
    rw [this]
    simp
  · rw [vScatter_outside _ _ p (not_lt.mp hlt)]
    simp

/-- The mesh is aligned: where two local nodes are the same point of the domain, so are the corresponding local nodes of
their faces. The digits off the shared points agree, and moving along the face keeps the nodes together. -/
def Aligned (mesh : Mesh K d) (low : Nodes1D K) : Prop :=
  ∀ m < mesh.numElements, ∀ n < mesh.nodesPerElem, ∀ m' < mesh.numElements, ∀ n' < mesh.nodesPerElem, ∀ p q : ℕ,
    mesh.elements m n = p → mesh.elements m' n' = q → SameNode mesh p q →
    (∀ k < d, digit mesh.grid.numPoints d k n = digit mesh.grid.numPoints d k n' ∨
      (SharedPoint mesh.grid low (digit mesh.grid.numPoints d k n) ∧
        SharedPoint mesh.grid low (digit mesh.grid.numPoints d k n'))) ∧
    ∀ j < mesh.nodesPerElem, ∀ j' < mesh.nodesPerElem, SameFace mesh low n j → SameFace mesh low n' j' →
      (∀ k < d, ¬ SharedPoint mesh.grid low (digit mesh.grid.numPoints d k n) →
        digit mesh.grid.numPoints d k j = digit mesh.grid.numPoints d k j') →
      ∃ a b : ℕ, mesh.elements m j = a ∧ mesh.elements m' j' = b ∧ a < mesh.numNodes ∧ b < mesh.numNodes ∧ SameNode mesh a b

/-- A sum over flat indices as a sum over digits. -/
theorem sum_digits {N : ℕ} (hN : 0 < N) (f : ℕ → K) :
    ∃ flat : (Fin d → Fin N) → ℕ, (∀ a, flat a < N ^ d) ∧ (∀ a (k : Fin d), digit N d k (flat a) = a k) ∧
      ∑ j ∈ Finset.range (N ^ d), f j = ∑ a, f (flat a) := by
  choose flat hlt hdig using fun a : Fin d → Fin N => digit_surj a
  refine ⟨flat, hlt, hdig, ?_⟩
  symm
  refine Finset.sum_bij (fun a _ => flat a) (fun a _ => Finset.mem_range.mpr (hlt a)) ?_ ?_ (fun _ _ => rfl)
  · intro a _ b _ hab
    funext k
    apply Fin.ext
    rw [← hdig a k, ← hdig b k, hab]
  · intro j hj
    refine ⟨fun k => ⟨digit N d k j, Verif.Common.digit_lt _ _ _ _ hN⟩, Finset.mem_univ _, ?_⟩
    refine digit_ext (hlt _) (Finset.mem_range.mp hj) fun k hk => ?_
    exact hdig _ ⟨k, hk⟩

/-- On aligned meshes the local results agree on the same point. -/
theorem filter_local_same (F : FilterSetup sem.vspace.mesh low) (hal : Aligned sem.vspace.mesh low) {u : Vel K d} {k : Fin d}
    (hu : Continuous sem.vspace.mesh (fun j => u j k)) {m n m' n' p q : ℕ} (hm : m < sem.vspace.mesh.numElements)
    (hn : n < sem.vspace.mesh.nodesPerElem) (hm' : m' < sem.vspace.mesh.numElements) (hn' : n' < sem.vspace.mesh.nodesPerElem)
    (hp : sem.vspace.mesh.elements m n = p) (hq : sem.vspace.mesh.elements m' n' = q) (hs : SameNode sem.vspace.mesh p q) :
    ∑ j ∈ Finset.range sem.vspace.mesh.nodesPerElem, vGather sem.vspace.mesh u m j k * filterEntry sem.vspace.mesh low n j =
      ∑ j ∈ Finset.range sem.vspace.mesh.nodesPerElem,
        vGather sem.vspace.mesh u m' j k * filterEntry sem.vspace.mesh low n' j := by
  classical
  obtain ⟨hdig, hface⟩ := hal m hm n hn m' hm' n' hn' p q hp hq hs
  set mesh := sem.vspace.mesh
  set N := mesh.grid.numPoints with hN
  have hL := interpMatrix1d_eq _ _ F.weights F.nodes low.value
  have hH := interpMatrix1d_eq _ _ F.lowWeights F.lowNodes mesh.grid.value
  obtain ⟨flat, hlt, hfd, hsum⟩ := sum_digits (d := d) (N := N) F.points
    (fun j => vGather mesh u m j k * filterEntry mesh low n j)
  obtain ⟨flat', hlt', hfd', hsum'⟩ := sum_digits (d := d) (N := N) F.points
    (fun j => vGather mesh u m' j k * filterEntry mesh low n' j)
  unfold Mesh.nodesPerElem at hn hn' ⊢
  rw [hsum, hsum']
  let e : (Fin d → Fin N) ≃ (Fin d → Fin N) := Equiv.piCongrRight fun k' =>
    if SharedPoint mesh.grid low (digit N d k' n) then
      Equiv.swap ⟨digit N d k' n, Verif.Common.digit_lt _ _ _ _ F.points⟩ ⟨digit N d k' n', Verif.Common.digit_lt _ _ _ _ F.points⟩
    else Equiv.refl _
  refine Fintype.sum_equiv e _ _ fun a => ?_
  -- the two matrix entries agree
  have hent : filterEntry mesh low n (flat a) = filterEntry mesh low n' (flat' (e a)) := by
    unfold filterEntry
    rw [hL, hH]
    refine Finset.prod_congr rfl fun k' hk' => ?_
    rw [Finset.mem_range] at hk'
    have e1 : digit N d k' (flat a) = a ⟨k', hk'⟩ := hfd a ⟨k', hk'⟩
    have e2 : digit N d k' (flat' (e a)) = e a ⟨k', hk'⟩ := hfd' (e a) ⟨k', hk'⟩
    rw [e1, e2]
    have he : e a ⟨k', hk'⟩ = (if SharedPoint mesh.grid low (digit N d k' n) then
      Equiv.swap (⟨digit N d k' n, Verif.Common.digit_lt _ _ _ _ F.points⟩ : Fin N)
        ⟨digit N d k' n', Verif.Common.digit_lt _ _ _ _ F.points⟩
      else Equiv.refl _) (a ⟨k', hk'⟩) := rfl
    rw [he]
    by_cases hsh : SharedPoint mesh.grid low (digit N d k' n)
    · have hsh' : SharedPoint mesh.grid low (digit N d k' n') := by
        rcases hdig k' hk' with h | h
        · rw [← h]; exact hsh
        · exact h.2
      rw [if_pos hsh, filter1_shared mesh.grid low F.weights F.nodes F.lowWeights F.lowNodes hL hH _ _ hsh (a ⟨k', hk'⟩).2,
        filter1_shared mesh.grid low F.weights F.nodes F.lowWeights F.lowNodes hL hH _ _ hsh' (Fin.is_lt _)]
      congr 1
      apply propext
      have : digit N d k' n = (a ⟨k', hk'⟩ : ℕ) ↔ (⟨digit N d k' n, Verif.Common.digit_lt _ _ _ _ F.points⟩ : Fin N) = a ⟨k', hk'⟩ := by
        rw [Fin.ext_iff]
      rw [this]
      set A : Fin N := ⟨digit N d k' n, Verif.Common.digit_lt _ _ _ _ F.points⟩
      set B : Fin N := ⟨digit N d k' n', Verif.Common.digit_lt _ _ _ _ F.points⟩ with hB
      have h3 : digit N d k' n' = ((Equiv.swap A B (a ⟨k', hk'⟩) : Fin N) : ℕ) ↔ B = Equiv.swap A B (a ⟨k', hk'⟩) := by
        rw [Fin.ext_iff]
      rw [h3]
      constructor
      · intro h; rw [← h, Equiv.swap_apply_left]
      · intro h
        have := congrArg (Equiv.swap A B) h
        rwa [Equiv.swap_apply_right, Equiv.swap_apply_self] at this
    · rw [if_neg hsh]
      rcases hdig k' hk' with h | h
      · rw [h]; rfl
      · exact absurd h.1 hsh
  rw [hent]
  by_cases hz : filterEntry mesh low n' (flat' (e a)) = 0
  · rw [hz, mul_zero, mul_zero]
  · have hsf : SameFace mesh low n (flat a) := by
      by_contra hcon
      unfold SameFace at hcon
      push Not at hcon
      obtain ⟨k', hk', h1, h2⟩ := hcon
      exact hz (by rw [← hent]; exact filterEntry_face F hk' h1 h2)
    have hsf' : SameFace mesh low n' (flat' (e a)) := by
      by_contra hcon
      unfold SameFace at hcon
      push Not at hcon
      obtain ⟨k', hk', h1, h2⟩ := hcon
      exact hz (filterEntry_face F hk' h1 h2)
    obtain ⟨x, y, hx, hy, hxN, hyN, hxy⟩ := hface (flat a) (hlt a) (flat' (e a)) (hlt' (e a)) hsf hsf' (by
      intro k' hk' hsh
      have e1 : digit N d k' (flat a) = a ⟨k', hk'⟩ := hfd a ⟨k', hk'⟩
      have e2 : digit N d k' (flat' (e a)) = e a ⟨k', hk'⟩ := hfd' (e a) ⟨k', hk'⟩
      have he : e a ⟨k', hk'⟩ = (if SharedPoint mesh.grid low (digit N d k' n) then
        Equiv.swap (⟨digit N d k' n, Verif.Common.digit_lt _ _ _ _ F.points⟩ : Fin N)
          ⟨digit N d k' n', Verif.Common.digit_lt _ _ _ _ F.points⟩
        else Equiv.refl _) (a ⟨k', hk'⟩) := rfl
      rw [e1, e2, he, if_neg hsh]
      rfl)
    congr 1
    unfold vGather
    rw [Mesh.gather_apply _ _ _ _ (hlt a), Mesh.gather_apply _ _ _ _ (hlt' (e a)), hx, hy, if_pos (by omega), if_pos (by omega),
      readPos_nat hxN, readPos_nat hyN]
    exact hu x hxN y hyN hxy

/-- On aligned meshes the filter preserves fields that agree on copies. -/
theorem filter_TSpace [IsStrictOrderedRing K] (F : FilterSetup sem.vspace.mesh low) (hr : sem.vspace.mesh.InRange)
    (hface : FaceClosed sem.vspace.mesh low (fun p => sem.mask p = 0)) (hal : Aligned sem.vspace.mesh low)
    (hdiag : sem.diagQqt = sem.vspace.mesh.scatter (fun _ _ => 1))
    (hcov : ∀ j < sem.vspace.mesh.numNodes, ∃ m < sem.vspace.mesh.numElements, ∃ n < sem.vspace.mesh.nodesPerElem,
      sem.vspace.mesh.elements m n = j) (alpha : K) (u : Vel K d) (hu : u ∈ TSpace sem)
    (w : Vel K d) (hw : sem.filter low alpha u = some w) : w ∈ TSpace sem := by
  refine ⟨filter_VSpace F hr hface alpha u hu.1 w hw, ?_⟩
  obtain ⟨w', hw', loc, hloc, h⟩ := filter_eq (sem := sem) F alpha u
  rw [hw, Option.some.injEq] at hw'
  subst hw'
  intro k
  -- the value is the local value of any element
  have hval : ∀ p < sem.vspace.mesh.numNodes, ∀ m < sem.vspace.mesh.numElements, ∀ n < sem.vspace.mesh.nodesPerElem,
      sem.vspace.mesh.elements m n = p → (1 / sem.diagQqt p) * vScatter sem.vspace.mesh loc p k = loc m n k := by
    intro p hp m hm n hn he
    have hne : sem.diagQqt p ≠ 0 := by
      rw [hdiag, Mesh.scatter_apply]
      apply ne_of_gt
      refine Finset.sum_pos' (fun m _ => Finset.sum_nonneg fun n _ => ?_) ⟨m, Finset.mem_range.mpr hm,
        Finset.sum_pos' (fun n _ => ?_) ⟨n, Finset.mem_range.mpr hn, ?_⟩⟩
      · split
        · rw [mul_one]; unfold maskOf; split <;> simp
        · exact le_rfl
      · split
        · rw [mul_one]; unfold maskOf; split <;> simp
        · exact le_rfl
      · rw [he, if_pos (writePos_nat hp), maskOf_nat]; simp
    have : vScatter sem.vspace.mesh loc p k = sem.diagQqt p * loc m n k := by
      rw [hdiag]
      unfold vScatter
      rw [Mesh.scatter_apply, Mesh.scatter_apply, Finset.sum_mul]
      refine Finset.sum_congr rfl fun m' hm' => ?_
      rw [Finset.sum_mul]
      refine Finset.sum_congr rfl fun n' hn' => ?_
      rw [Finset.mem_range] at hm' hn'
      split
      · rename_i hwp
        rw [mul_one]
        rcases hr m' hm' n' hn' with he' | ⟨h0, h1⟩
        · rw [he']; simp [maskOf, sentinel]
        · congr 1
          obtain ⟨a, ha⟩ := Int.eq_ofNat_of_zero_le h0
          rw [ha] at hwp h1
          rw [writePos_nat (by exact_mod_cast h1), Option.some.injEq] at hwp
          rw [hwp] at ha
          rw [hloc m' n' hn', hloc m n hn]
          exact filter_local_same F hal (hu.2 k) hm' hn' hm hn ha he (SameNode.refl _ _)
      · rw [zero_mul]
    rw [this, ← mul_assoc, one_div, inv_mul_cancel₀ hne, one_mul]
  intro p hp q hq hs
  obtain ⟨m, hm, n, hn, he⟩ := hcov p hp
  obtain ⟨m', hm', n', hn', he'⟩ := hcov q hq
  simp only
  rw [h, h, hval p hp m hm n hn he, hval q hq m' hm' n' hn' he', hloc m n hn, hloc m' n' hn',
    filter_local_same F hal (hu.2 k) hm hn hm' hn' he he' hs]
  rw [show u p k = u q k from hu.2 k p hp q hq hs]

end Verif.NS
