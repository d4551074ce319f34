import Verif.Lemmas.RefinerMain

/-!
# C27: refined elements are conforming and keep their geometry

`FirstOrder pm` says that `pm` is a first order premesh whose elements have distinct valid nodes and in which any two
facets with the same corners are related by a symmetry of the cube (`matching`).

The property as stated is false (`C27_violated`): `_refine_facets` applies the orientation to the wrong side, so a face
that two hexahedra see with a quarter turn gets its interior nodes in the wrong places as soon as there are two interior
points per axis. It holds whenever the orientations of the shared facets are their own inverse on the interior grid
(`C27_geometry_partial`, `C27_conforming_partial`); this covers all meshes in one and two dimensions (`C27_low_dimension`)
and all meshes up to order two (`C27_order_two`).
-/

set_option linter.unusedSectionVars false

namespace Verif.Core

open Verif.Common Verif.Spec

variable {K V : Type*} [Field K] [LinearOrder K] [IsStrictOrderedRing K] [AddCommGroup V] [Module K V]

/-- The orientations with which elements see shared facets are their own inverse on the `mm` interior points. -/
def OwnInverse (pm : Premesh1 V) (mm : ℕ) : Prop :=
  ∀ el ∈ pm.elements, ∀ el' ∈ pm.elements, ∀ ft ft' : List FacetDim, ft.length = pm.ndim → ft'.length = pm.ndim →
    ft'.count .inner = ft.count .inner → 0 < ft.count .inner → ft.count .inner < pm.ndim →
    ∀ σ fl, AxisPerm (ft.count .inner) σ → Matching (ft.count .inner) (facetCorners ft el) (facetCorners ft' el') σ fl →
      Involutive mm (ft.count .inner) σ fl

/-- Nodes of a shared facet in terms of the facet that was met first. -/
theorem shared_facet {n : ℕ} {pm : Premesh1 V} (h : FirstOrder pm) {tcf : ℕ → List ℕ → V} {st : RState V}
    (hE : ∀ x ∈ st.mapping, EntryOK (refineJobs pm.ndim pm.elements (some tcf)) pm.ndim (n + 1) st.nodes x)
    {e : ℕ} (he : e < pm.elements.length) {ft : List FacetDim} (hft : ft ∈ facetTypes pm.ndim) {ns : List ℕ}
    (ho : OutOK pm.ndim (n + 1) st (mkJob pm.elements (some tcf) ft e) ns) (h0 : 0 < ft.count .inner)
    (hD : ft.count .inner < pm.ndim) :
    ∃ (e0 : ℕ) (ft0 : List FacetDim) (σ : ℕ → ℕ) (fl : ℕ → Prop) (tn : List ℕ), e0 < pm.elements.length ∧ ft0 ∈ facetTypes pm.ndim ∧ ft0.count .inner = ft.count .inner ∧
      (facetCorners ft0 (pm.elements.getD e0 [])).Perm (facetCorners ft (pm.elements.getD e [])) ∧
      AxisPerm (ft.count .inner) σ ∧
      Matching (ft.count .inner) (facetCorners ft0 (pm.elements.getD e0 [])) (facetCorners ft (pm.elements.getD e [])) σ fl ∧
      mappingGet st.mapping ((facetCorners ft (pm.elements.getD e [])).insertionSort (· ≤ ·)) =
        some (facetCorners ft0 (pm.elements.getD e0 []), tn) ∧
      tn.length = (n + 1 - 2) ^ ft.count .inner ∧
      (∀ p < (n + 1 - 2) ^ ft.count .inner, ∃ q, CubeImage (n + 1 - 2) (ft.count .inner) σ fl p q ∧ ns[p]? = tn[q]?) ∧
      ∀ (q v : ℕ) (I : List ℕ), tn[q]? = some v → (facetSlice (n + 1) true ft0)[q]? = some I → st.nodes[v]? = some (tcf e0 I) := by
  have hgetD : ∀ {e}, e < pm.elements.length → pm.elements.getD e [] ∈ pm.elements := fun {e} he => by
    rw [List.getD_eq_getElem _ _ he]; exact List.getElem_mem he
  obtain ⟨orient, tn, perm, hget, hperm, hns⟩ := ho.2.2 h0 hD
  obtain ⟨j, hj, tc, htc, h1, h2, h3, h4, h5⟩ := hE _ (mappingGet_mem hget)
  obtain ⟨ft0, e0, hft0, he0, rfl⟩ := mem_refineJobs.mp hj
  simp only [mkJob, Option.map_some, Option.some.injEq] at htc
  subst htc
  have hp : (facetCorners ft0 (pm.elements.getD e0 [])).Perm (facetCorners ft (pm.elements.getD e [])) :=
    key_eq_iff.mp h3.symm
  have hcnt : ft0.count .inner = ft.count .inner := by
    have := hp.length_eq
    simp only [facetCorners_length] at this
    exact Nat.pow_right_injective (le_refl 2) this
  have horient : orient = facetCorners ft0 (pm.elements.getD e0 []) := h4
  subst horient
  obtain ⟨σ, fl, hσ, hM⟩ := h.matching _ (hgetD he0) _ (hgetD he) ft0 ft (mem_facetTypes.mp hft0) (mem_facetTypes.mp hft)
    hcnt.symm h1 h2 hp
  rw [hcnt] at hσ hM
  have hnd := facetCorners_nodup (mem_facetTypes.mp hft) (h.width _ (hgetD he)) (h.distinct _ (hgetD he))
  obtain ⟨perm', hperm', himg⟩ := ordering_of_matching (n + 1 - 2) hσ
    (by rw [facetCorners_length, hcnt]) hnd hM
  have hpp : perm' = perm := by
    have e1 : orderingsGet (ft.count .inner) (n + 1 - 2)
      ((facetCorners ft0 (pm.elements.getD e0 [])).map (fun k => (facetCorners ft (pm.elements.getD e [])).idxOf k)) =
        some perm := hperm
    rw [hperm'] at e1
    exact Option.some.inj e1
  subst hpp
  have htl : tn.length = (n + 1 - 2) ^ ft.count .inner := by
    have := congrArg List.length h5
    simp only [List.length_map, mkJob, slice_true_length, hcnt] at this
    exact this
  refine ⟨e0, ft0, σ, fl, tn, he0, hft0, hcnt, hp, hσ, hM, hget, htl, ?_, ?_⟩
  · intro p hp
    obtain ⟨q, hq, hc⟩ := himg p hp
    refine ⟨q, hc, ?_⟩
    rw [hns, List.getElem?_map, hq]
    have hqt : q < tn.length := by rw [htl]; exact hc.1
    simp only [Option.map_some, List.getD_eq_getElem _ _ hqt, List.getElem?_eq_getElem hqt]
  · intro q v I hv hI
    have := congrArg (fun l => l[q]?) h5
    simp only [List.getElem?_map, hv, Option.map_some] at this
    simp only [mkJob, hI, Option.map_some, Option.some.injEq] at this
    exact this

omit [LinearOrder K] [IsStrictOrderedRing K] in
theorem lin_symm {n : ℕ} (nodes : Fin (n + 1) → K) (hsym : ∀ i, nodes (Fin.rev i) = - nodes i) :
    ∀ a < n + 1 - 2, ∀ b < 2, lin (at0 nodes (n + 1 - 2 - 1 - a + 1)) (1 - b) = lin (at0 nodes (a + 1)) b := by
  intro a ha b hb
  have h1 : at0 nodes (n + 1 - 2 - 1 - a + 1) = - at0 nodes (a + 1) := by
    rw [at0, dif_pos (by omega), at0, dif_pos (by omega), ← hsym]
    congr 1
    apply Fin.ext
    simp [Fin.rev]
    omega
  rw [h1]
  unfold lin
  interval_cases b
  · simp [sub_eq_add_neg]
  · simp [sub_eq_add_neg]

/-- Every node of every refined element is where interpolation of the element's corners puts it.

Partial: `OwnInverse` is a restriction; without it the statement is false, see `C27_violated`. -/
theorem C27_geometry_partial {n : ℕ} {pm : Premesh1 V} (h : FirstOrder pm) (hn : 1 ≤ n) (nodes : Fin (n + 1) → K)
    (hends : nodes 0 = -1 ∧ nodes (Fin.last n) = 1) (hsym : ∀ i, nodes (Fin.rev i) = - nodes i)
    (hown : OwnInverse pm (n - 1)) {r : Refined V} (hr : refinePremesh pm nodes = .ok r)
    (e : ℕ) (el : List ℕ) (hel : pm.elements[e]? = some el) (i : ℕ) (hi : i < (n + 1) ^ pm.ndim) :
    ∃ (ref : List ℤ) (v : ℕ), r.elements[e]? = some ref ∧ ref[i]? = some (v : ℤ) ∧ r.nodeCoords[v]? =
      some (∑ c ∈ Finset.range (2 ^ pm.ndim),
        (∏ k ∈ Finset.range pm.ndim, lin (at0 nodes (digit (n + 1) pm.ndim k i)) (digit 2 pm.ndim k c)) •
          pm.nodeCoords.getD (el.getD c 0) 0) := by
  obtain ⟨tcf, st, els, more, mores, N, g1, _, g3, g4, g5, g6, g7, g8, g9, _⟩ := refine_ok h hn nodes hends
  obtain ⟨hre, hrn⟩ := g1 r hr
  obtain ⟨he, hele⟩ := List.getElem?_eq_some_iff.mp hel
  have hgd : pm.elements.getD e [] = el := by rw [List.getD_eq_getElem _ _ he, hele]
  have hmm : n - 1 = n + 1 - 2 := by omega
  rw [hmm] at hown
  have hlen : (digits (n + 1) pm.ndim i).length = pm.ndim := digits_length _ _ _
  have hlt : ∀ x ∈ digits (n + 1) pm.ndim i, x < n + 1 := fun x hx => mem_digits_lt (by omega) hx
  have hrav : ravel (n + 1) (digits (n + 1) pm.ndim i) = i := ravel_digits hi
  obtain ⟨ft, ⟨hft, hmem⟩, _⟩ := C25_interiors_tile pm.ndim (n + 1) (by omega) _ hlen hlt
  obtain ⟨p, hI⟩ := List.mem_iff_getElem?.mp hmem
  obtain ⟨hout, hNl⟩ := g8 e he ft hft
  have hp : p < (n + 1 - 2) ^ ft.count .inner := by
    have := (List.getElem?_eq_some_iff.mp hI).1
    rwa [slice_true_length] at this
  have hpN : p < (N e ft).length := by rw [hNl]; exact hp
  obtain ⟨v, hv⟩ : ∃ v, (N e ft)[p]? = some v := ⟨_, List.getElem?_eq_getElem hpN⟩
  have hpos := (g9 e he).2 ft hft p _ v hI hv
  rw [hrav] at hpos
  refine ⟨els.getD e [], v, ?_, hpos, ?_⟩
  · rw [hre, List.getD_eq_getElem _ _ (by rw [g4]; exact he), List.getElem?_eq_getElem]
  rw [hrn]
  change st.nodes[v]? = some (interpolated pm.ndim nodes pm.nodeCoords el i)
  have hfacet := interpolated_facet nodes hends.1 hends.2 pm.nodeCoords el (mem_facetTypes.mp hft) hp _ hI
  rw [hrav] at hfacet
  have hcl := count_le_length ft
  rw [mem_facetTypes.mp hft] at hcl
  rcases Nat.eq_zero_or_pos (ft.count .inner) with h0 | h0
  · -- a corner
    have hns := hout.1 h0
    rw [h0, pow_zero] at hp
    have hp0 : p = 0 := by omega
    subst hp0
    have hcur : (facetCorners ft el)[0]? = some v := by
      rw [← hv, hns]
      simp only [Job.corners, mkJob, hgd]
    have hmemv : v ∈ el := facetCorners_mem (mem_facetTypes.mp hft)
      (h.width _ (List.mem_of_getElem? hel)) v (List.mem_of_getElem? hcur)
    have hvlt := h.valid _ (List.mem_of_getElem? hel) v hmemv
    rw [hfacet, h0, pow_zero, Finset.sum_range_one]
    simp only [facetWeight, Finset.range_zero, Finset.prod_empty, one_smul]
    rw [List.getD_eq_getElem?_getD (l := facetCorners ft el), hcur, g5, List.getElem?_append_left hvlt]
    simp only [Option.getD_some]
    rw [List.getD_eq_getElem _ _ hvlt, List.getElem?_eq_getElem hvlt]
  · by_cases hD : ft.count .inner = pm.ndim
    · -- the interior of the element
      have := hout.2.1 h0 hD (tcf e) rfl
      have h2 := congrArg (fun l => l[p]?) this
      simp only [List.getElem?_map, hv, Option.map_some, mkJob, hI, Option.some.injEq] at h2
      rw [h2, g3 e _ hlen hlt, hgd, hrav]
    · -- a shared facet
      have hlt' : ft.count .inner < pm.ndim := by omega
      obtain ⟨e0, ft0, σ, fl, tn, he0, hft0, hcnt, hperm, hσ, hM, _, htl, hq, hco⟩ :=
        shared_facet h g7 he hft hout h0 hlt'
      obtain ⟨q, hpq, hnq⟩ := hq p hp
      have hgetD : ∀ {e}, e < pm.elements.length → pm.elements.getD e [] ∈ pm.elements := fun {e} he => by
        rw [List.getD_eq_getElem _ _ he]; exact List.getElem_mem he
      have hinv : Involutive (n + 1 - 2) (ft.count .inner) σ fl := by
        have := hown _ (hgetD he0) _ (hgetD he) ft0 ft (mem_facetTypes.mp hft0) (mem_facetTypes.mp hft) hcnt.symm
          (by rw [hcnt]; exact h0) (by rw [hcnt]; exact hlt') σ fl (by rw [hcnt]; exact hσ) (by rw [hcnt]; exact hM)
        rwa [hcnt] at this
      have hqp : CubeImage (n + 1 - 2) (ft.count .inner) σ fl q p := by
        obtain ⟨s, hs⟩ := cubeImage_exists fl hσ hpq.1
        rw [← hinv p q s hp hpq hs]
        exact hs
      have hqs : q < (facetSlice (n + 1) true ft0).length := by rw [slice_true_length, hcnt]; exact hpq.1
      obtain ⟨I0, hI0⟩ : ∃ I0, (facetSlice (n + 1) true ft0)[q]? = some I0 := ⟨_, List.getElem?_eq_getElem hqs⟩
      have hnode := hco q v I0 (by rw [← hnq, hv]) hI0
      obtain ⟨hI0l, hI0lt⟩ := (C25_slices_valid pm.ndim (n + 1) (by omega) true ft0 (mem_facetTypes.mp hft0)).2 I0
        (List.mem_of_getElem? hI0)
      rw [hnode, g3 e0 I0 hI0l hI0lt, interpolated_facet nodes hends.1 hends.2 pm.nodeCoords _ (mem_facetTypes.mp hft0)
        (by rw [hcnt]; exact hpq.1) I0 hI0, hfacet, hcnt]
      congr 1
      have hmm0 : 0 < n + 1 - 2 := by
        rcases Nat.eq_zero_or_pos (n + 1 - 2) with hz | hz
        · rw [hz, zero_pow (by omega)] at hp; omega
        · exact hz
      rw [hgd] at hM
      have hl0 : (facetCorners ft0 (pm.elements.getD e0 [])).length = 2 ^ ft.count .inner := by
        rw [facetCorners_length, hcnt]
      have hw := lin_symm nodes hsym
      generalize hW : (fun a b => lin (at0 nodes a) b) = W
      have hw' : ∀ a < n + 1 - 2, ∀ b < 2, W (n + 1 - 2 - 1 - a + 1) (1 - b) = W (a + 1) b := by
        rw [← hW]; exact hw
      have hfin := facet_sum_symm (K := K) (V := V) W (n + 1 - 2) (ft.count .inner) hw' hσ hmm0 hqp hl0 hM
      exact (hfin (fun x => pm.nodeCoords.getD x 0)).symm

/-- Two elements with facets that have the same corners refer to the same nodes inside the facets: the node at
interior point `p` of one is the node at the corresponding point of the other.

Partial: `OwnInverse` is a restriction; without it the statement is false, see `C27_violated`. -/
theorem C27_conforming_partial {n : ℕ} {pm : Premesh1 V} (h : FirstOrder pm) (hn : 1 ≤ n) (nodes : Fin (n + 1) → K)
    (hends : nodes 0 = -1 ∧ nodes (Fin.last n) = 1) (hown : OwnInverse pm (n - 1)) {r : Refined V}
    (hr : refinePremesh pm nodes = .ok r) {e e' : ℕ} {el el' : List ℕ} (hel : pm.elements[e]? = some el)
    (hel' : pm.elements[e']? = some el') {ft ft' : List FacetDim} (hft : ft.length = pm.ndim)
    (hft' : ft'.length = pm.ndim) {k : ℕ} (hk : ft.count .inner = k) (hk' : ft'.count .inner = k) (hkD : k < pm.ndim)
    {σ : ℕ → ℕ} {fl : ℕ → Prop} (hσ : AxisPerm k σ) (hM : Matching k (facetCorners ft el) (facetCorners ft' el') σ fl)
    {p q : ℕ} (hp : p < (n - 1) ^ k) (hpq : CubeImage (n - 1) k σ fl p q) {I J : List ℕ}
    (hI : (facetSlice (n + 1) true ft)[p]? = some I) (hJ : (facetSlice (n + 1) true ft')[q]? = some J) :
    ∃ (ref ref' : List ℤ) (v : ℕ), r.elements[e]? = some ref ∧ r.elements[e']? = some ref' ∧
      ref[ravel (n + 1) I]? = some (v : ℤ) ∧ ref'[ravel (n + 1) J]? = some (v : ℤ) := by
  subst hk
  obtain ⟨tcf, st, els, more, mores, N, g1, _, g3, g4, g5, g6, g7, g8, g9, _⟩ := refine_ok h hn nodes hends
  obtain ⟨hre, hrn⟩ := g1 r hr
  obtain ⟨he, hele⟩ := List.getElem?_eq_some_iff.mp hel
  have hgd : pm.elements.getD e [] = el := by rw [List.getD_eq_getElem _ _ he, hele]
  obtain ⟨he', hele'⟩ := List.getElem?_eq_some_iff.mp hel'
  have hgd' : pm.elements.getD e' [] = el' := by rw [List.getD_eq_getElem _ _ he', hele']
  have hmm : n - 1 = n + 1 - 2 := by omega
  rw [hmm] at hown hp hpq
  have hmf := mem_facetTypes.mpr hft
  have hmf' := mem_facetTypes.mpr hft'
  obtain ⟨hout, hNl⟩ := g8 e he ft hmf
  obtain ⟨hout', hNl'⟩ := g8 e' he' ft' hmf'
  have hpN : p < (N e ft).length := by rw [hNl]; exact hp
  obtain ⟨v, hv⟩ : ∃ v, (N e ft)[p]? = some v := ⟨_, List.getElem?_eq_getElem hpN⟩
  have hmain : (N e' ft')[q]? = some v := by
    rcases Nat.eq_zero_or_pos (ft.count .inner) with h0 | h0
    · rw [hout.1 h0] at hv
      rw [hout'.1 (by change ft'.count .inner = 0; omega)]
      rw [h0, pow_zero] at hp
      rw [h0] at hpq hM
      have hp0 : p = 0 := by omega
      have hq0 : q = 0 := by have := hpq.1; rw [pow_zero] at this; omega
      subst hp0; subst hq0
      have := hM 0 (by norm_num) 0 ⟨by norm_num, fun i hi => by omega⟩
      simp only [Job.corners, mkJob, hgd, hgd'] at hv ⊢
      rw [this, hv]
    · obtain ⟨e0, ft0, σ0, fl0, tn, he0, hft0, hcnt, hperm, hσ0, hM0, hget, htl, hq0, _⟩ :=
        shared_facet h g7 he hmf hout h0 hkD
      obtain ⟨e1, ft1, σ1, fl1, tn1, he1, hft1, hcnt1, hperm1, hσ1, hM1, hget1, htl1, hq1, _⟩ :=
        shared_facet h g7 he' hmf' hout' (by omega) (by omega)
      -- both facets have the same key, so they were met first in the same place
      have hperm' : (facetCorners ft (pm.elements.getD e [])).Perm (facetCorners ft' (pm.elements.getD e' [])) := by
        rw [hgd, hgd']
        have hlen : (facetCorners ft el).length = (facetCorners ft' el').length := by
          rw [facetCorners_length, facetCorners_length, hk']
        have hnd := facetCorners_nodup hft (h.width _ (List.mem_of_getElem? hel)) (h.distinct _ (List.mem_of_getElem? hel))
        refine (List.Nodup.subperm hnd ?_).perm_of_length_le (by omega)
        intro x hx
        obtain ⟨c, hc⟩ := List.mem_iff_getElem?.mp hx
        have hcl : c < 2 ^ ft.count .inner := by
          have := (List.getElem?_eq_some_iff.mp hc).1
          rwa [facetCorners_length] at this
        obtain ⟨z, hz⟩ := cubeImage_exists fl hσ hcl
        have := hM c hcl z hz
        rw [hc] at this
        exact List.mem_of_getElem? this
      have hkey := key_eq_iff.mpr hperm'
      rw [← hkey, hget] at hget1
      obtain ⟨ho, rfl⟩ := Prod.mk.inj (Option.some.inj hget1)
      rw [hk'] at hσ1 hM1 hq1 htl1
      rw [← ho] at hM1
      have hgetD : ∀ {e}, e < pm.elements.length → pm.elements.getD e [] ∈ pm.elements := fun {e} he => by
        rw [List.getD_eq_getElem _ _ he]; exact List.getElem_mem he
      have hinv0 : Involutive (n + 1 - 2) (ft.count .inner) σ0 fl0 := by
        have := hown _ (hgetD he0) _ (hgetD he) ft0 ft (mem_facetTypes.mp hft0) hft hcnt.symm
          (by rw [hcnt]; exact h0) (by rw [hcnt]; exact hkD) σ0 fl0 (by rw [hcnt]; exact hσ0) (by rw [hcnt]; exact hM0)
        rwa [hcnt] at this
      have hinv1 : Involutive (n + 1 - 2) (ft.count .inner) σ1 fl1 := by
        have := hown _ (hgetD he0) _ (hgetD he') ft0 ft' (mem_facetTypes.mp hft0) hft' (by omega)
          (by rw [hcnt]; exact h0) (by rw [hcnt]; exact hkD) σ1 fl1 (by rw [hcnt]; exact hσ1) (by rw [hcnt]; exact hM1)
        rwa [hcnt] at this
      obtain ⟨a, hpa, hna⟩ := hq0 p hp
      obtain ⟨b, hqb, hnb⟩ := hq1 q hpq.1
      have hab : a = b := by
        refine involutive_triangle hσ0 hσ1 hσ (cur := facetCorners ft el) (cur' := facetCorners ft' el')
          (by rw [facetCorners_length, hk'])
          (facetCorners_nodup hft' (h.width _ (List.mem_of_getElem? hel')) (h.distinct _ (List.mem_of_getElem? hel')))
          (by rw [← hgd]; exact hM0) (by rw [← hgd']; exact hM1) hM hinv0 hinv1 hp hpq hpa hqb
      rw [hnb, ← hab, ← hna, hv]
  refine ⟨els.getD e [], els.getD e' [], v, ?_, ?_, (g9 e he).2 ft hmf p I v hI hv, (g9 e' he').2 ft' hmf' q J v hJ hmain⟩
  · rw [hre, List.getD_eq_getElem _ _ (by rw [g4]; exact he), List.getElem?_eq_getElem]
  · rw [hre, List.getD_eq_getElem _ _ (by rw [g4]; exact he'), List.getElem?_eq_getElem]

/-! ### Cases in which the restriction holds -/

theorem involutive_one (mm : ℕ) {σ : ℕ → ℕ} {fl : ℕ → Prop} (hσ : AxisPerm 1 σ) : Involutive mm 1 σ fl := by
  intro p q r hp hq hr
  have h0 : σ 0 = 0 := by
    have : σ 0 < 1 := hσ.mapsTo (show (0 : ℕ) ∈ {i | i < 1} by simp)
    omega
  have hd : ∀ x, x < mm → digit mm 1 0 x = x := by
    intro x hx
    simp [digit, Nat.mod_eq_of_lt hx]
  rw [pow_one] at hp
  have hq1 : q < mm := by simpa using hq.1
  have hr1 : r < mm := by simpa using hr.1
  obtain ⟨a1, a2⟩ := hq.2 0 (by norm_num)
  obtain ⟨b1, b2⟩ := hr.2 0 (by norm_num)
  rw [h0, hd p hp, hd q hq1] at a1 a2
  rw [h0, hd q hq1, hd r hr1] at b1 b2
  by_cases hf : fl 0
  · have := a1 hf; have := b1 hf; omega
  · have := a2 hf; have := b2 hf; omega

theorem involutive_small {mm k : ℕ} (hmm : mm ≤ 1) (σ : ℕ → ℕ) (fl : ℕ → Prop) : Involutive mm k σ fl := by
  intro p q r hp hq hr
  have : mm ^ k ≤ 1 := by
    calc mm ^ k ≤ 1 ^ k := Nat.pow_le_pow_left hmm k
      _ = 1 := one_pow k
  have := hr.1
  omega

/-- In one and two dimensions only edges are shared. -/
theorem ownInverse_low {pm : Premesh1 V} (hD : pm.ndim ≤ 2) (mm : ℕ) : OwnInverse pm mm := by
  intro el _ el' _ ft ft' _ _ _ h0 hlt σ fl hσ _
  have : ft.count .inner = 1 := by omega
  rw [this] at hσ ⊢
  exact involutive_one mm hσ

/-- Edges with the same corners always match. -/
theorem matching_low {D nd : ℕ} (hD : D ≤ 2) (fs els : List (List ℕ)) : FacetsMatch D fs nd els := by
  intro el _ el' _ ft ft' _ _ hcnt h0 hlt hp
  have h1 : ft.count .inner = 1 := by omega
  rw [h1]
  have hl : (facetCorners ft el).length = 2 := by rw [facetCorners_length, h1]; rfl
  have hl' : (facetCorners ft' el').length = 2 := by rw [facetCorners_length, hcnt, h1]; rfl
  obtain ⟨a, b, hab⟩ := List.length_eq_two.mp hl
  obtain ⟨a', b', hab'⟩ := List.length_eq_two.mp hl'
  rw [hab, hab'] at hp ⊢
  have hcase : (a = a' ∧ b = b') ∨ (a = b' ∧ b = a') := by
    have ha : a ∈ [a', b'] := hp.subset (by simp)
    have hb : b ∈ [a', b'] := hp.subset (by simp)
    have ha' : a' ∈ [a, b] := hp.symm.subset (by simp)
    have hb' : b' ∈ [a, b] := hp.symm.subset (by simp)
    simp only [List.mem_cons, List.not_mem_nil, or_false] at ha hb ha' hb'
    omega
  have hd : ∀ x, x < 2 → digit 2 1 0 x = x := fun x hx => by simp [digit, Nat.mod_eq_of_lt hx]
  rcases hcase with ⟨rfl, rfl⟩ | ⟨rfl, rfl⟩
  · refine ⟨fun i => i, fun _ => False, Set.bijOn_id _, ?_⟩
    intro c hc q hq
    rw [pow_one] at hc
    have hq1 : q < 2 := by simpa using hq.1
    have := (hq.2 0 (by norm_num)).2 (fun h => h)
    rw [hd c hc, hd q hq1] at this
    rw [this]
  · refine ⟨fun i => i, fun _ => True, Set.bijOn_id _, ?_⟩
    intro c hc q hq
    rw [pow_one] at hc
    have hq1 : q < 2 := by simpa using hq.1
    have := (hq.2 0 (by norm_num)).1 trivial
    rw [hd c hc, hd q hq1] at this
    subst this
    interval_cases c <;> rfl

/-- In one and two dimensions the property holds for every first order premesh with distinct valid corners: refinement
succeeds, nodes are where interpolation puts them, and shared edges have the same nodes. -/
theorem C27_low_dimension {n : ℕ} {pm : Premesh1 V} (h1 : 1 ≤ pm.ndim) (h2 : pm.ndim ≤ 2) (ho : pm.order = 1)
    (hw : ∀ el ∈ pm.elements, el.length = 2 ^ pm.ndim) (hd : ∀ el ∈ pm.elements, el.Nodup)
    (hv : ∀ el ∈ pm.elements, ∀ x ∈ el, x < pm.nodeCoords.length) (hn : 1 ≤ n) (nodes : Fin (n + 1) → K)
    (hends : nodes 0 = -1 ∧ nodes (Fin.last n) = 1) :
    FirstOrder pm ∧ OwnInverse pm (n - 1) ∧
      (pm.physicalGroups = [] → pm.periodicLinks = none → ∃ r, refinePremesh pm nodes = .ok r) := by
  have hF : FirstOrder pm := ⟨h1, ho, hw, hd, hv, matching_low h2 _ _⟩
  refine ⟨hF, ownInverse_low h2 _, fun hg hl => ?_⟩
  obtain ⟨_, st, els, _, _, _, _, g2, _⟩ := refine_ok hF hn nodes hends
  exact ⟨_, g2 hg hl⟩

/-- Up to order two (at most one interior point per axis) the restriction holds in any dimension. -/
theorem C27_order_two {n : ℕ} (hn : n ≤ 2) (pm : Premesh1 V) : OwnInverse pm (n - 1) := by
  intro el _ el' _ ft ft' _ _ _ _ _ σ fl _ _
  exact involutive_small (by omega) σ fl

/-- Refinement of a conforming first order premesh without physical groups and links succeeds. -/
theorem C27_succeeds {n : ℕ} {pm : Premesh1 V} (h : FirstOrder pm) (hn : 1 ≤ n) (nodes : Fin (n + 1) → K)
    (hends : nodes 0 = -1 ∧ nodes (Fin.last n) = 1) (hg : pm.physicalGroups = []) (hl : pm.periodicLinks = none) :
    ∃ r, refinePremesh pm nodes = .ok r := by
  obtain ⟨_, st, els, _, _, _, _, g2, _⟩ := refine_ok h hn nodes hends
  exact ⟨_, g2 hg hl⟩

/-! ### Checking the hypotheses on concrete meshes -/

/-- A decidable form of `FacetsMatch`. -/
def matchCheck (D : ℕ) (fs : List (List ℕ)) (nd : ℕ) (els : List (List ℕ)) : Bool :=
  els.all fun el => fs.all fun el' => (facetTypes D).all fun ft => (facetTypes nd).all fun ft' =>
    if ft'.count .inner = ft.count .inner ∧ 0 < ft.count .inner ∧ ft.count .inner < D ∧
      (facetCorners ft el).insertionSort (· ≤ ·) = (facetCorners ft' el').insertionSort (· ≤ ·) then
      (orderingsGet (ft.count .inner) 0 ((facetCorners ft el).map (fun k => (facetCorners ft' el').idxOf k))).isSome
    else true

theorem facetsMatch_of_check {D nd : ℕ} {fs els : List (List ℕ)} (h : matchCheck D fs nd els = true) :
    FacetsMatch D fs nd els := by
  intro el hel el' hel' ft ft' hft hft' hcnt h0 hlt hp
  unfold matchCheck at h
  rw [List.all_eq_true] at h
  have h1 := h el hel
  rw [List.all_eq_true] at h1
  have h2 := h1 el' hel'
  rw [List.all_eq_true] at h2
  have h3 := h2 ft (mem_facetTypes.mpr hft)
  rw [List.all_eq_true] at h3
  have h4 := h3 ft' (mem_facetTypes.mpr hft')
  rw [if_pos ⟨hcnt, h0, hlt, key_eq_iff.mpr hp⟩] at h4
  obtain ⟨v, hv⟩ := Option.isSome_iff_exists.mp h4
  obtain ⟨σ, fl, hσ, hkl, _, hkey, _⟩ := C26_entry_is_symmetry _ _ _ _ hv
  refine ⟨σ, fl, hσ, fun c hc q hq => ?_⟩
  obtain ⟨q', hq', him⟩ := hkey c hc
  have hqq := cubeImage_unique hq him
  subst hqq
  have hcl : c < (facetCorners ft el).length := by rw [facetCorners_length]; exact hc
  rw [List.getElem?_map, List.getElem?_eq_getElem hcl] at hq'
  simp only [Option.map_some, Option.some.injEq] at hq'
  rw [List.getElem?_eq_getElem hcl, ← hq']
  have hmem : (facetCorners ft el)[c] ∈ facetCorners ft' el' := hp.subset (List.getElem_mem hcl)
  rw [List.getElem?_eq_getElem (List.idxOf_lt_length_iff.mpr hmem), List.getElem_idxOf]

/-- Two quadrilaterals that share an edge with opposite directions, refined to order three. -/
example : let pm : Premesh1 (ℚ × ℚ) := ⟨2, 1, [(0, 0), (0, 1), (1, 0), (1, 1), (2, 0), (2, 1)],
    [[0, 1, 2, 3], [5, 4, 3, 2]], [], none⟩
    FirstOrder pm ∧ (∃ r, refinePremesh pm (ncNode 4 (K := ℚ)) = .ok r) ∧ OwnInverse pm 2 := by
  intro pm
  obtain ⟨h1, h2, h3⟩ := C27_low_dimension (n := 3) (pm := pm) (by decide) (by decide) rfl (by decide) (by decide)
    (by decide) (by norm_num) (ncNode 4 : Fin 4 → ℚ) (by constructor <;> decide +kernel)
  exact ⟨h1, h3 rfl rfl, h2⟩

/-- Two unit cubes side by side; the second is numbered so that it sees the common face with a quarter turn. -/
def turnedCubes : Premesh1 (ℚ × ℚ × ℚ) where
  ndim := 3
  order := 1
  nodeCoords := [(0, 0, 0), (0, 0, 1), (0, 1, 0), (0, 1, 1), (1, 0, 0), (1, 0, 1), (1, 1, 0), (1, 1, 1),
    (2, 0, 0), (2, 0, 1), (2, 1, 0), (2, 1, 1)]
  elements := [[0, 1, 2, 3, 4, 5, 6, 7], [5, 7, 4, 6, 9, 11, 8, 10]]
  physicalGroups := []
  periodicLinks := none

/-- The property is false: refining two conforming cubes to order three puts the node at position `(3, 1, 1)` of the
first cube at `(1, 2/3, 2/3)`, whereas its position is `(1, 1/3, 1/3)`. -/
theorem C27_violated : FirstOrder turnedCubes ∧ ∃ r ref v, refinePremesh turnedCubes (ncNode 4 (K := ℚ)) = .ok r ∧
    r.elements[0]? = some ref ∧ ref[ravel 4 [3, 1, 1]]? = some ((v : ℕ) : ℤ) ∧
    r.nodeCoords[v]? = some (1, 2 / 3, 2 / 3) ∧
    interpolated 3 (ncNode 4 (K := ℚ)) turnedCubes.nodeCoords [0, 1, 2, 3, 4, 5, 6, 7] (ravel 4 [3, 1, 1]) =
      (1, 1 / 3, 1 / 3) := by
  refine ⟨⟨by decide, rfl, by decide, by decide, by decide, facetsMatch_of_check (by decide +kernel)⟩, ?_⟩
  have hchk : (match refinePremesh turnedCubes (ncNode 4 (K := ℚ)) with
      | .error _ => false
      | .ok r => match r.elements[0]? with
        | none => false
        | some ref => match ref[ravel 4 [3, 1, 1]]? with
          | none => false
          | some z => decide (z = (z.toNat : ℤ)) && decide (r.nodeCoords[z.toNat]? = some (1, 2 / 3, 2 / 3))) = true := by
    decide +kernel
  have hint : interpolated 3 (ncNode 4 (K := ℚ)) turnedCubes.nodeCoords [0, 1, 2, 3, 4, 5, 6, 7] (ravel 4 [3, 1, 1]) =
      (1, 1 / 3, 1 / 3) := by decide +kernel
  cases hr : refinePremesh turnedCubes (ncNode 4 (K := ℚ)) with
  | error _ => rw [hr] at hchk; simp at hchk
  | ok r =>
    rw [hr] at hchk
    simp only at hchk
    cases hel : r.elements[0]? with
    | none => rw [hel] at hchk; simp at hchk
    | some ref =>
      rw [hel] at hchk
      simp only at hchk
      cases hz : ref[ravel 4 [3, 1, 1]]? with
      | none => rw [hz] at hchk; simp at hchk
      | some z =>
        rw [hz] at hchk
        simp only [Bool.and_eq_true, decide_eq_true_eq] at hchk
        exact ⟨r, ref, z.toNat, rfl, hel, by rw [hz, ← hchk.1], hchk.2, hint⟩

end Verif.Core
