import Verif.Props.C27

/-! Refining lists of facets (physical groups, periodic links) against the mapping built by the elements. -/

set_option linter.unusedSectionVars false

namespace Verif.Core

open Verif.Common Verif.Spec

section Unchanged
variable {V : Type*}

theorem refineFacet_none {D m : ℕ} {ft : List FacetDim} {el : List ℕ} {st st' : RState V}
    {ns : List ℕ} (h : refineFacet D m ft el none st = .ok (st', ns)) : st' = st := by
  unfold refineFacet at h
  simp only at h
  split at h
  · simp only [Except.ok.injEq, Prod.mk.injEq] at h
    exact h.1.symm
  · split at h
    · simp at h
    · split at h
      · simp at h
      · simp only [Except.ok.injEq, Prod.mk.injEq] at h
        exact h.1.symm

theorem runJobs_none {D m : ℕ} : ∀ {js : List (Job V)} {st st' : RState V} {outs : List (List FacetDim × ℕ × List ℕ)},
    (∀ j ∈ js, j.coords = none) → runJobs D m js st = .ok (st', outs) → st' = st
  | [], st, st', outs, _, h => by
    simp only [runJobs, Except.ok.injEq, Prod.mk.injEq] at h
    exact h.1.symm
  | j :: js, st, st', outs, hn, h => by
    simp only [runJobs] at h
    split at h
    · simp at h
    · rename_i st1 ns h1
      rw [hn j List.mem_cons_self] at h1
      have e1 := refineFacet_none h1
      subst e1
      split at h
      · simp at h
      · rename_i st2 rest h2
        simp only [Except.ok.injEq, Prod.mk.injEq] at h
        rw [← h.1]
        exact runJobs_none (fun i hi => hn i (List.mem_cons_of_mem _ hi)) h2

/-- Refining facets without coordinates adds nothing. -/
theorem refineFacets_none {D m nd : ℕ} {fs : List (List ℕ)} {st st' : RState V}
    {res : List (List ℤ)} (h : refineFacets D m nd fs none st = .ok (st', res)) : st' = st := by
  unfold refineFacets at h
  split at h
  · simp at h
  · rename_i h1
    simp only [Except.ok.injEq, Prod.mk.injEq] at h
    rw [← h.1]
    refine runJobs_none (fun j hj => ?_) h1
    obtain ⟨ft, e, _, _, rfl⟩ := mem_refineJobs.mp hj
    rfl

theorem runJobs_none_found {D m : ℕ} : ∀ {js : List (Job V)} {st st' : RState V}
    {outs : List (List FacetDim × ℕ × List ℕ)}, (∀ j ∈ js, j.coords = none) → runJobs D m js st = .ok (st', outs) →
    ∀ j ∈ js, j.ft.count .inner ≠ 0 → mappingGet st.mapping ((facetCorners j.ft j.el).insertionSort (· ≤ ·)) ≠ none
  | [], _, _, _, _, _, j, hj, _ => by simp at hj
  | i :: js, st, st', outs, hn, h, j, hj, hc => by
    simp only [runJobs] at h
    split at h
    · simp at h
    · rename_i st1 ns h1
      rw [hn i List.mem_cons_self] at h1
      have e1 := refineFacet_none h1
      subst e1
      split at h
      · simp at h
      · rename_i st2 rest h2
        rcases List.mem_cons.mp hj with rfl | hj
        · unfold refineFacet at h1
          simp only at h1
          rw [if_neg hc] at h1
          intro hnone
          rw [hnone] at h1
          simp at h1
        · exact runJobs_none_found (fun i hi => hn i (List.mem_cons_of_mem _ hi)) h2 j hj hc

/-- Refining facets without coordinates succeeds only if the subfacets are found. -/
theorem refineFacets_none_found {D m nd : ℕ} {fs : List (List ℕ)} {st st' : RState V}
    {res : List (List ℤ)} (h : refineFacets D m nd fs none st = .ok (st', res)) {f : List ℕ} (hf : f ∈ fs)
    {ft : List FacetDim} (hft : ft.length = nd) (hc : ft.count .inner ≠ 0) :
    mappingGet st.mapping ((facetCorners ft f).insertionSort (· ≤ ·)) ≠ none := by
  unfold refineFacets at h
  split at h
  · simp at h
  · rename_i h1
    obtain ⟨e, he, rfl⟩ := List.mem_iff_getElem.mp hf
    have := runJobs_none_found (fun j hj => by obtain ⟨ft, e, _, _, rfl⟩ := mem_refineJobs.mp hj; rfl) h1
      (mkJob fs none ft e) (mem_refineJobs.mpr ⟨ft, e, mem_facetTypes.mpr hft, he, rfl⟩) hc
    simpa only [mkJob, List.getD_eq_getElem _ _ he] using this

end Unchanged

variable {K V : Type*} [Field K] [LinearOrder K] [IsStrictOrderedRing K] [AddCommGroup V] [Module K V]

/-- A list of facets of the elements of `pm`: every facet has `2 ^ (ndim - 1)` distinct corners, each of its subfacets
(itself included) is a facet of some element, and facets with the same corners match by a cube symmetry. -/
structure FacetsOf (pm : Premesh1 V) (fs : List (List ℕ)) : Prop where
  width : ∀ f ∈ fs, f.length = 2 ^ (pm.ndim - 1)
  distinct : ∀ f ∈ fs, f.Nodup
  valid : ∀ f ∈ fs, ∀ x ∈ f, x < pm.nodeCoords.length
  found : ∀ f ∈ fs, ∀ ft' : List FacetDim, ft'.length = pm.ndim - 1 → ft'.count .inner ≠ 0 →
    ∃ el ∈ pm.elements, ∃ ft : List FacetDim, ft.length = pm.ndim ∧ (facetCorners ft el).Perm (facetCorners ft' f)
  matching : FacetsMatch pm.ndim fs (pm.ndim - 1) pm.elements

/-- The orientations with which the facets in the list are seen by the elements are their own inverse on the `mm`
interior points. -/
def OwnInverseF (pm : Premesh1 V) (fs : List (List ℕ)) (mm : ℕ) : Prop :=
  ∀ el ∈ pm.elements, ∀ f ∈ fs, ∀ ft ft' : List FacetDim, ft.length = pm.ndim → ft'.length = pm.ndim - 1 →
    ft'.count .inner = ft.count .inner → 0 < ft.count .inner → ft.count .inner < pm.ndim →
    ∀ σ fl, AxisPerm (ft.count .inner) σ → Matching (ft.count .inner) (facetCorners ft el) (facetCorners ft' f) σ fl →
      Involutive mm (ft.count .inner) σ fl

/-- What the refined facets are. -/
theorem facets_ok {n : ℕ} {pm : Premesh1 V} (h : FirstOrder pm) (hn : 1 ≤ n) {tcf : ℕ → List ℕ → V}
    {st : RState V} {N : ℕ → List FacetDim → List ℕ} {fs : List (List ℕ)} (hf : FacetsOf pm fs)
    (hE : ∀ x ∈ st.mapping, EntryOK (refineJobs pm.ndim pm.elements (some tcf)) pm.ndim (n + 1) st.nodes x)
    (hO : ∀ e < pm.elements.length, ∀ ft ∈ facetTypes pm.ndim,
        OutOK pm.ndim (n + 1) st (mkJob pm.elements (some tcf) ft e) (N e ft) ∧
        (N e ft).length = (n + 1 - 2) ^ ft.count .inner) :
    ∃ (res : List (List ℤ)) (NF : ℕ → List FacetDim → List ℕ),
      refineFacets pm.ndim (n + 1) (pm.ndim - 1) fs none st = .ok (st, res) ∧ res.length = fs.length ∧
      (∀ e < fs.length, ∀ ft ∈ facetTypes (pm.ndim - 1), OutOK pm.ndim (n + 1) st (mkJob fs none ft e) (NF e ft) ∧
        (NF e ft).length = (n + 1 - 2) ^ ft.count .inner) ∧
      (∀ e < fs.length, (res.getD e []).length = (n + 1) ^ (pm.ndim - 1) ∧ ∀ ft ∈ facetTypes (pm.ndim - 1),
        ∀ (p : ℕ) (I : List ℕ) (v : ℕ), (facetSlice (n + 1) true ft)[p]? = some I →
        (NF e ft)[p]? = some v → (res.getD e [])[ravel (n + 1) I]? = some (v : ℤ)) := by
  have hdim := h.dim_pos
  obtain ⟨st', res, more, mores, NF, g1, g2, g3, g4, g5, g6, g7, _⟩ :=
    refineFacets_ok (D := pm.ndim) (m := n + 1) (nd := pm.ndim - 1) (by omega) (els := pm.elements) (fs := fs) tcf none st
      hf.width hf.distinct hE (Or.inr ⟨by omega, fun f hfm ft' hft' hc => by
        obtain ⟨el, hel, ft, hft, hp⟩ := hf.found f hfm ft' (mem_facetTypes.mp hft') hc
        obtain ⟨e, he, rfl⟩ := List.mem_iff_getElem.mp hel
        have hcnt : ft.count .inner = ft'.count .inner := by
          have := hp.length_eq
          simp only [facetCorners_length] at this
          exact Nat.pow_right_injective (le_refl 2) this
        have hle := count_le_length ft'
        rw [mem_facetTypes.mp hft'] at hle
        obtain ⟨orient, tn, perm, hget, _⟩ := (hO e he ft (mem_facetTypes.mpr hft)).1.2.2
          (by change 0 < ft.count .inner; omega) (by change ft.count .inner < pm.ndim; omega)
        have hk : (mkJob pm.elements (some tcf) ft e).key = (facetCorners ft' f).insertionSort (· ≤ ·) := by
          refine key_eq_iff.mpr ?_
          simp only [Job.corners, mkJob, List.getD_eq_getElem _ _ he]
          exact hp
        rw [← hk, hget]
        simp⟩) hf.matching
  have := refineFacets_none g1
  subst this
  exact ⟨res, NF, g1, g2, g6, g7⟩

/-- Nodes of a facet in the list in terms of the element facet that was met first. -/
theorem shared_facet_of {n : ℕ} {pm : Premesh1 V} (h : FirstOrder pm) {tcf : ℕ → List ℕ → V} {st : RState V}
    {fs : List (List ℕ)} (hf : FacetsOf pm fs)
    (hE : ∀ x ∈ st.mapping, EntryOK (refineJobs pm.ndim pm.elements (some tcf)) pm.ndim (n + 1) st.nodes x)
    {e : ℕ} (he : e < fs.length) {ft : List FacetDim} (hft : ft ∈ facetTypes (pm.ndim - 1)) {ns : List ℕ}
    (ho : OutOK pm.ndim (n + 1) st (mkJob fs none ft e) ns) (h0 : 0 < ft.count .inner) :
    ∃ (e0 : ℕ) (ft0 : List FacetDim) (σ : ℕ → ℕ) (fl : ℕ → Prop) (tn : List ℕ), e0 < pm.elements.length ∧
      ft0 ∈ facetTypes pm.ndim ∧ ft0.count .inner = ft.count .inner ∧
      (facetCorners ft0 (pm.elements.getD e0 [])).Perm (facetCorners ft (fs.getD e [])) ∧
      AxisPerm (ft.count .inner) σ ∧
      Matching (ft.count .inner) (facetCorners ft0 (pm.elements.getD e0 [])) (facetCorners ft (fs.getD e [])) σ fl ∧
      mappingGet st.mapping ((facetCorners ft (fs.getD e [])).insertionSort (· ≤ ·)) =
        some (facetCorners ft0 (pm.elements.getD e0 []), tn) ∧
      tn.length = (n + 1 - 2) ^ ft.count .inner ∧
      (∀ p < (n + 1 - 2) ^ ft.count .inner, ∃ q, CubeImage (n + 1 - 2) (ft.count .inner) σ fl p q ∧ ns[p]? = tn[q]?) ∧
      ∀ (q v : ℕ) (I : List ℕ), tn[q]? = some v → (facetSlice (n + 1) true ft0)[q]? = some I →
        st.nodes[v]? = some (tcf e0 I) := by
  have hgetD : ∀ {l : List (List ℕ)} {e}, e < l.length → l.getD e [] ∈ l := fun {l e} he => by
    rw [List.getD_eq_getElem _ _ he]; exact List.getElem_mem he
  have hle := count_le_length ft
  rw [mem_facetTypes.mp hft] at hle
  have hdim := h.dim_pos
  have hD : ft.count .inner < pm.ndim := by omega
  obtain ⟨orient, tn, perm, hget, hperm, hns⟩ := ho.2.2 h0 hD
  obtain ⟨j, hj, tc, htc, h1, h2, h3, h4, h5⟩ := hE _ (mappingGet_mem hget)
  obtain ⟨ft0, e0, hft0, he0, rfl⟩ := mem_refineJobs.mp hj
  simp only [mkJob, Option.map_some, Option.some.injEq] at htc
  subst htc
  have hp : (facetCorners ft0 (pm.elements.getD e0 [])).Perm (facetCorners ft (fs.getD e [])) :=
    key_eq_iff.mp h3.symm
  have hcnt : ft0.count .inner = ft.count .inner := by
    have := hp.length_eq
    simp only [facetCorners_length] at this
    exact Nat.pow_right_injective (le_refl 2) this
  have horient : orient = facetCorners ft0 (pm.elements.getD e0 []) := h4
  subst horient
  obtain ⟨σ, fl, hσ, hM⟩ := hf.matching _ (hgetD he0) _ (hgetD he) ft0 ft (mem_facetTypes.mp hft0) (mem_facetTypes.mp hft)
    hcnt.symm h1 h2 hp
  rw [hcnt] at hσ hM
  have hnd := facetCorners_nodup (mem_facetTypes.mp hft) (hf.width _ (hgetD he)) (hf.distinct _ (hgetD he))
  obtain ⟨perm', hperm', himg⟩ := ordering_of_matching (n + 1 - 2) hσ
    (by rw [facetCorners_length, hcnt]) hnd hM
  have hpp : perm' = perm := by
    have e1 : orderingsGet (ft.count .inner) (n + 1 - 2)
      ((facetCorners ft0 (pm.elements.getD e0 [])).map (fun k => (facetCorners ft (fs.getD e [])).idxOf k)) =
        some perm := hperm
    rw [hperm'] at e1
    exact Option.some.inj e1
  subst hpp
  have htl : tn.length = (n + 1 - 2) ^ ft.count .inner := by
    have := congrArg List.length h5
    simp only [List.length_map, mkJob, slice_true_length, hcnt] at this
    exact this
  refine ⟨e0, ft0, σ, fl, tn, he0, hft0, hcnt, hp, hσ, hM, hget, htl, ?_, ?_⟩
  · intro p hp
    obtain ⟨q, hq, hc⟩ := himg p hp
    refine ⟨q, hc, ?_⟩
    rw [hns, List.getElem?_map, hq]
    have hqt : q < tn.length := by rw [htl]; exact hc.1
    simp only [Option.map_some, List.getD_eq_getElem _ _ hqt, List.getElem?_eq_getElem hqt]
  · intro q v I hv hI
    have := congrArg (fun l => l[q]?) h5
    simp only [List.getElem?_map, hv, Option.map_some] at this
    simp only [mkJob, hI, Option.map_some, Option.some.injEq] at this
    exact this

/-- Where the nodes of a refined facet are. -/
theorem facets_geometry {n : ℕ} {pm : Premesh1 V} (h : FirstOrder pm) (nodes : Fin (n + 1) → K)
    (hends : nodes 0 = -1 ∧ nodes (Fin.last n) = 1) (hsym : ∀ i, nodes (Fin.rev i) = - nodes i)
    {tcf : ℕ → List ℕ → V} {st : RState V} {more : List V} {fs : List (List ℕ)} (hf : FacetsOf pm fs)
    (hown : OwnInverseF pm fs (n - 1))
    (hE : ∀ x ∈ st.mapping, EntryOK (refineJobs pm.ndim pm.elements (some tcf)) pm.ndim (n + 1) st.nodes x)
    (g3 : ∀ e I, I.length = pm.ndim → (∀ x ∈ I, x < n + 1) →
        tcf e I = interpolated pm.ndim nodes pm.nodeCoords (pm.elements.getD e []) (ravel (n + 1) I))
    (g5 : st.nodes = pm.nodeCoords ++ more)
    {e : ℕ} (he : e < fs.length) {ft : List FacetDim} (hft : ft ∈ facetTypes (pm.ndim - 1)) {ns : List ℕ}
    (hout : OutOK pm.ndim (n + 1) st (mkJob fs none ft e) ns) {p v : ℕ} {I : List ℕ}
    (hI : (facetSlice (n + 1) true ft)[p]? = some I) (hv : ns[p]? = some v) :
    st.nodes[v]? = some (interpolated (pm.ndim - 1) nodes pm.nodeCoords (fs.getD e []) (ravel (n + 1) I)) := by
  have hgetD : ∀ {l : List (List ℕ)} {e}, e < l.length → l.getD e [] ∈ l := fun {l e} he => by
    rw [List.getD_eq_getElem _ _ he]; exact List.getElem_mem he
  have hmm : n - 1 = n + 1 - 2 := by omega
  rw [hmm] at hown
  have hp : p < (n + 1 - 2) ^ ft.count .inner := by
    have := (List.getElem?_eq_some_iff.mp hI).1
    rwa [slice_true_length] at this
  have hfacet := interpolated_facet nodes hends.1 hends.2 pm.nodeCoords (fs.getD e []) (mem_facetTypes.mp hft) hp _ hI
  rcases Nat.eq_zero_or_pos (ft.count .inner) with h0 | h0
  · have hns := hout.1 h0
    rw [h0, pow_zero] at hp
    have hp0 : p = 0 := by omega
    subst hp0
    have hcur : (facetCorners ft (fs.getD e []))[0]? = some v := by
      rw [← hv, hns]
      simp only [Job.corners, mkJob]
    have hmemv : v ∈ fs.getD e [] := facetCorners_mem (mem_facetTypes.mp hft)
      (hf.width _ (hgetD he)) v (List.mem_of_getElem? hcur)
    have hvlt := hf.valid _ (hgetD he) v hmemv
    rw [hfacet, h0, pow_zero, Finset.sum_range_one]
    simp only [facetWeight, Finset.range_zero, Finset.prod_empty, one_smul]
    rw [List.getD_eq_getElem?_getD (l := facetCorners ft _), hcur, g5, List.getElem?_append_left hvlt]
    simp only [Option.getD_some]
    rw [List.getD_eq_getElem _ _ hvlt, List.getElem?_eq_getElem hvlt]
  · have hle := count_le_length ft
    rw [mem_facetTypes.mp hft] at hle
    have hdim := h.dim_pos
    have hD : ft.count .inner < pm.ndim := by omega
    obtain ⟨e0, ft0, σ, fl, tn, he0, hft0, hcnt, hperm, hσ, hM, _, htl, hq, hco⟩ :=
      shared_facet_of h hf hE he hft hout h0
    obtain ⟨q, hpq, hnq⟩ := hq p hp
    have hinv : Involutive (n + 1 - 2) (ft.count .inner) σ fl := by
      have := hown _ (hgetD he0) _ (hgetD he) ft0 ft (mem_facetTypes.mp hft0) (mem_facetTypes.mp hft) hcnt.symm
        (by rw [hcnt]; exact h0) (by rw [hcnt]; exact hD) σ fl (by rw [hcnt]; exact hσ) (by rw [hcnt]; exact hM)
      rwa [hcnt] at this
    have hqp : CubeImage (n + 1 - 2) (ft.count .inner) σ fl q p := by
      obtain ⟨s, hs⟩ := cubeImage_exists fl hσ hpq.1
      rw [← hinv p q s hp hpq hs]
      exact hs
    have hqs : q < (facetSlice (n + 1) true ft0).length := by rw [slice_true_length, hcnt]; exact hpq.1
    obtain ⟨I0, hI0⟩ : ∃ I0, (facetSlice (n + 1) true ft0)[q]? = some I0 := ⟨_, List.getElem?_eq_getElem hqs⟩
    have hnode := hco q v I0 (by rw [← hnq, hv]) hI0
    obtain ⟨hI0l, hI0lt⟩ := (C25_slices_valid pm.ndim (n + 1) (by omega) true ft0 (mem_facetTypes.mp hft0)).2 I0
      (List.mem_of_getElem? hI0)
    rw [hnode, g3 e0 I0 hI0l hI0lt, interpolated_facet nodes hends.1 hends.2 pm.nodeCoords _ (mem_facetTypes.mp hft0)
      (by rw [hcnt]; exact hpq.1) I0 hI0, hfacet, hcnt]
    congr 1
    have hmm0 : 0 < n + 1 - 2 := by
      rcases Nat.eq_zero_or_pos (n + 1 - 2) with hz | hz
      · rw [hz, zero_pow (by omega)] at hp; omega
      · exact hz
    have hl0 : (facetCorners ft0 (pm.elements.getD e0 [])).length = 2 ^ ft.count .inner := by
      rw [facetCorners_length, hcnt]
    have hw := lin_symm nodes hsym
    generalize hW : (fun a b => lin (at0 nodes a) b) = W
    have hw' : ∀ a < n + 1 - 2, ∀ b < 2, W (n + 1 - 2 - 1 - a + 1) (1 - b) = W (a + 1) b := by
      rw [← hW]; exact hw
    have hfin := facet_sum_symm (K := K) (V := V) W (n + 1 - 2) (ft.count .inner) hw' hσ hmm0 hqp hl0 hM
    exact (hfin (fun x => pm.nodeCoords.getD x 0)).symm

end Verif.Core
