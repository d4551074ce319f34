import Verif.Lemmas.RefinerGeom

/-! Helper lemmas for the mesh refiner: the result for each element and facet type. -/

namespace Verif.Core

open Verif.Common Verif.Spec

variable {V : Type*}

/-- The job of facet type `ft` and facet number `e`. -/
def mkJob (facets : List (List ℕ)) (coords : Option (ℕ → List ℕ → V)) (ft : List FacetDim) (e : ℕ) : Job V :=
  ⟨ft, e, facets.getD e [], coords.map (fun c => c e)⟩

theorem refineJobs_eq (nd : ℕ) (facets : List (List ℕ)) (coords : Option (ℕ → List ℕ → V)) :
    refineJobs nd facets coords =
      ((facetTypes nd) ×ˢ (List.range facets.length)).map (fun t => mkJob facets coords t.1 t.2) := by
  change _ = List.map _ ((facetTypes nd).flatMap _)
  unfold refineJobs
  rw [List.map_flatMap]
  simp only [List.map_map]
  rfl

theorem mem_refineJobs {nd : ℕ} {facets : List (List ℕ)} {coords : Option (ℕ → List ℕ → V)} {j : Job V} :
    j ∈ refineJobs nd facets coords ↔ ∃ ft e, ft ∈ facetTypes nd ∧ e < facets.length ∧ j = mkJob facets coords ft e := by
  rw [refineJobs_eq, List.mem_map]
  constructor
  · rintro ⟨⟨ft, e⟩, h, rfl⟩
    rw [List.mem_product] at h
    exact ⟨ft, e, h.1, List.mem_range.mp h.2, rfl⟩
  · rintro ⟨ft, e, h1, h2, rfl⟩
    exact ⟨(ft, e), List.mem_product.mpr ⟨h1, List.mem_range.mpr h2⟩, rfl⟩

/-- Results of the loop as a function of facet and facet type. -/
theorem outs_fun {R : Job V → List ℕ → Prop} {nd : ℕ} {facets : List (List ℕ)} {coords : Option (ℕ → List ℕ → V)}
    {outs : List (List FacetDim × ℕ × List ℕ)}
    (h : List.Forall₂ (fun j o => o.1 = j.ft ∧ o.2.1 = j.idx ∧ R j o.2.2) (refineJobs nd facets coords) outs) :
    ∃ N : ℕ → List FacetDim → List ℕ,
      outs = ((facetTypes nd) ×ˢ (List.range facets.length)).map (fun t => (t.1, t.2, N t.2 t.1)) ∧
      ∀ e < facets.length, ∀ ft ∈ facetTypes nd, R (mkJob facets coords ft e) (N e ft) := by
  rw [refineJobs_eq] at h
  have hnd : ((facetTypes nd) ×ˢ (List.range facets.length)).Nodup := (facetTypes_nodup nd).product List.nodup_range
  have key : ∀ (L : List (List FacetDim × ℕ)), L.Nodup → ∀ outs, List.Forall₂ (fun j o => o.1 = j.ft ∧ o.2.1 = j.idx ∧ R j o.2.2)
      (L.map (fun t => mkJob facets coords t.1 t.2)) outs →
      ∃ N : ℕ → List FacetDim → List ℕ, outs = L.map (fun t => (t.1, t.2, N t.2 t.1)) ∧
        ∀ t ∈ L, R (mkJob facets coords t.1 t.2) (N t.2 t.1) := by
    intro L
    induction L with
    | nil =>
      intro _ outs h
      rw [List.map_nil, List.forall₂_nil_left_iff] at h
      exact ⟨fun _ _ => [], by simp [h], by simp⟩
    | cons t L ih =>
      intro hn outs h
      rw [List.nodup_cons] at hn
      rw [List.map_cons, List.forall₂_cons_left_iff] at h
      obtain ⟨o, outs', ⟨h1, h2, h3⟩, hrest, rfl⟩ := h
      obtain ⟨N, hN1, hN2⟩ := ih hn.2 outs' hrest
      have hne : ∀ s ∈ L, ¬ (s.2 = t.2 ∧ s.1 = t.1) := by
        rintro s hs ⟨ha, hb⟩
        have : s = t := Prod.ext hb ha
        exact hn.1 (this ▸ hs)
      refine ⟨fun e ft => if e = t.2 ∧ ft = t.1 then o.2.2 else N e ft, ?_, ?_⟩
      · rw [List.map_cons]
        congr 1
        · refine Prod.ext h1 (Prod.ext h2 ?_)
          simp
        · rw [hN1]
          apply List.map_congr_left
          intro s hs
          simp only [hne s hs, if_false]
      · intro s hs
        rcases List.mem_cons.mp hs with rfl | hs
        · simpa using h3
        · have := hN2 s hs
          simp only [hne s hs, if_false]
          exact this
  obtain ⟨N, hN1, hN2⟩ := key _ hnd outs h
  exact ⟨N, hN1, fun e he ft hft => hN2 (ft, e) (List.mem_product.mpr ⟨hft, List.mem_range.mpr he⟩)⟩

theorem facetCorners_nodup {nd : ℕ} {ft : List FacetDim} (hft : ft.length = nd) {el : List ℕ}
    (hlen : el.length = 2 ^ nd) (hn : el.Nodup) : (facetCorners ft el).Nodup := by
  unfold facetCorners
  obtain ⟨h1, h2⟩ := C25_slices_valid nd 2 (by norm_num) false ft hft
  refine List.Nodup.map_on ?_ h1
  intro I hI J hJ h
  obtain ⟨hIl, hI2⟩ := h2 I hI
  obtain ⟨hJl, hJ2⟩ := h2 J hJ
  have hi : ravel 2 I < el.length := by rw [hlen, ← hIl]; exact ravel_lt hI2
  have hj : ravel 2 J < el.length := by rw [hlen, ← hJl]; exact ravel_lt hJ2
  rw [List.getD_eq_getElem _ _ hi, List.getD_eq_getElem _ _ hj] at h
  exact ravel_inj hI2 hJ2 (by omega) ((List.Nodup.getElem_inj_iff hn).mp h)

theorem facetCorners_mem {nd : ℕ} {ft : List FacetDim} (hft : ft.length = nd) {el : List ℕ}
    (hlen : el.length = 2 ^ nd) : ∀ x ∈ facetCorners ft el, x ∈ el := by
  unfold facetCorners
  intro x hx
  obtain ⟨I, hI, rfl⟩ := List.mem_map.mp hx
  obtain ⟨hIl, hI2⟩ := (C25_slices_valid nd 2 (by norm_num) false ft hft).2 I hI
  have hi : ravel 2 I < el.length := by rw [hlen, ← hIl]; exact ravel_lt hI2
  rw [List.getD_eq_getElem _ _ hi]
  exact List.getElem_mem hi

theorem key_eq_iff {a b : List ℕ} : a.insertionSort (· ≤ ·) = b.insertionSort (· ≤ ·) ↔ a.Perm b := by
  constructor
  · intro h
    exact (List.perm_insertionSort _ a).symm.trans ((List.Perm.of_eq h).trans (List.perm_insertionSort _ b))
  · intro h
    exact (((List.perm_insertionSort _ a).trans h).trans (List.perm_insertionSort _ b).symm).eq_of_pairwise
      (fun x y _ _ h1 h2 => Nat.le_antisymm h1 h2) (List.pairwise_insertionSort _ a) (List.pairwise_insertionSort _ b)

/-- Facets with the same corners match by a cube symmetry. -/
def FacetsMatch (D : ℕ) (fs : List (List ℕ)) (nd : ℕ) (els : List (List ℕ)) : Prop :=
  ∀ el ∈ els, ∀ el' ∈ fs, ∀ ft ft' : List FacetDim, ft.length = D → ft'.length = nd →
    ft'.count .inner = ft.count .inner → 0 < ft.count .inner → ft.count .inner < D →
    (facetCorners ft el).Perm (facetCorners ft' el') →
    ∃ σ fl, AxisPerm (ft.count .inner) σ ∧
      Matching (ft.count .inner) (facetCorners ft el) (facetCorners ft' el') σ fl

theorem count_le_length (ft : List FacetDim) : ft.count .inner ≤ ft.length := List.count_le_length

/-- `_refine_facets` succeeds and what it returns. `els`, `tcf` are the elements with their target coordinates. -/
theorem refineFacets_ok {D m nd : ℕ} (hm : 2 ≤ m) {els fs : List (List ℕ)} (tcf : ℕ → List ℕ → V)
    (coords : Option (ℕ → List ℕ → V)) (st : RState V)
    (hlen : ∀ el ∈ fs, el.length = 2 ^ nd) (hn : ∀ el ∈ fs, el.Nodup)
    (hE : ∀ x ∈ st.mapping, EntryOK (refineJobs D els (some tcf)) D m st.nodes x)
    (hsrc : (fs = els ∧ nd = D ∧ coords = some tcf) ∨ (nd < D ∧ ∀ el ∈ fs, ∀ ft ∈ facetTypes nd, ft.count .inner ≠ 0 →
      mappingGet st.mapping ((facetCorners ft el).insertionSort (· ≤ ·)) ≠ none))
    (hmatch : FacetsMatch D fs nd els) :
    ∃ (st' : RState V) (res : List (List ℤ)) (more : List V) (mores : List (List ℕ × List ℕ × List ℕ))
      (N : ℕ → List FacetDim → List ℕ),
      refineFacets D m nd fs coords st = .ok (st', res) ∧ res.length = fs.length ∧
      st'.nodes = st.nodes ++ more ∧ st'.mapping = st.mapping ++ mores ∧
      (∀ x ∈ st'.mapping, EntryOK (refineJobs D els (some tcf)) D m st'.nodes x) ∧
      (∀ e < fs.length, ∀ ft ∈ facetTypes nd, OutOK D m st' (mkJob fs coords ft e) (N e ft) ∧
        (N e ft).length = (m - 2) ^ ft.count .inner) ∧
      (∀ e < fs.length, (res.getD e []).length = m ^ nd ∧ ∀ ft ∈ facetTypes nd, ∀ (p : ℕ) (I : List ℕ) (n : ℕ), (facetSlice m true ft)[p]? = some I →
        (N e ft)[p]? = some n → (res.getD e [])[ravel m I]? = some (n : ℤ)) ∧
      ((mores.map (·.2.2)).flatten ++ fullOuts D (((facetTypes nd) ×ˢ (List.range fs.length)).map
        (fun t => (t.1, t.2, N t.2 t.1)))).Perm (List.range' st.nodes.length more.length) := by
  have hgetD : ∀ {e}, e < fs.length → fs.getD e [] ∈ fs := fun {e} he => by
    rw [List.getD_eq_getElem _ _ he]; exact List.getElem_mem he
  obtain ⟨st', outs, more, mores, hrun, hn1, hm1, hE1, hO, hA⟩ :=
    runJobs_ok (JE := refineJobs D els (some tcf)) (D := D) (m := m) (refineJobs nd fs coords) st
    (fun j hj => by
      obtain ⟨ft, e, hft, he, rfl⟩ := mem_refineJobs.mp hj
      exact facetCorners_nodup (mem_facetTypes.mp hft) (hlen _ (hgetD he)) (hn _ (hgetD he)))
    hE
    (fun j hj => by
      rcases hsrc with ⟨rfl, rfl, rfl⟩ | ⟨hnd, hget⟩
      · left
        refine ⟨hj, ?_⟩
        obtain ⟨ft, e, hft, he, rfl⟩ := mem_refineJobs.mp hj
        simp [mkJob]
      · right
        obtain ⟨ft, e, hft, he, rfl⟩ := mem_refineJobs.mp hj
        refine ⟨?_, fun h0 => hget _ (hgetD he) ft hft h0⟩
        have := count_le_length ft
        rw [mem_facetTypes.mp hft] at this
        exact lt_of_le_of_lt this hnd)
    (fun j hj => by
      obtain ⟨ft, e, hft, he, rfl⟩ := mem_refineJobs.mp hj
      have := count_le_length ft
      rw [mem_facetTypes.mp hft] at this
      have hnd : nd ≤ D := by
        rcases hsrc with ⟨_, h, _⟩ | ⟨h, _⟩ <;> omega
      exact le_trans this hnd)
    (fun j hj i hi h0 hD hkey => by
      obtain ⟨ft', e', hft', he', rfl⟩ := mem_refineJobs.mp hj
      obtain ⟨ft, e, hft, he, rfl⟩ := mem_refineJobs.mp hi
      have hp := key_eq_iff.mp hkey
      have hcnt : ft'.count .inner = ft.count .inner := by
        have := hp.length_eq
        simp only [Job.corners, mkJob, facetCorners_length] at this
        exact (Nat.pow_right_injective (le_refl 2) this).symm
      have hel : els.getD e [] ∈ els := by
        rw [List.getD_eq_getElem _ _ he]; exact List.getElem_mem he
      obtain ⟨σ, fl, hσ, hM⟩ := hmatch _ hel _ (hgetD he') ft ft' (mem_facetTypes.mp hft) (mem_facetTypes.mp hft') hcnt
        (by rw [← hcnt]; exact h0) (by rw [← hcnt]; exact hD) hp
      have hnd' := facetCorners_nodup (mem_facetTypes.mp hft') (hlen _ (hgetD he')) (hn _ (hgetD he'))
      obtain ⟨perm, hperm, _⟩ := ordering_of_matching (m - 2) hσ (facetCorners_length _ _) hnd' hM
      have : (mkJob fs coords ft' e').dim = ft.count .inner := hcnt
      rw [this]
      intro hnone
      have h2 : orderingsGet (ft.count .inner) (m - 2)
        ((facetCorners ft (els.getD e [])).map (fun k => (facetCorners ft' (fs.getD e' [])).idxOf k)) = none := hnone
      rw [hperm] at h2
      exact absurd h2 (by simp))
  obtain ⟨N, hN1, hN2⟩ := outs_fun hO
  refine ⟨st', (List.range fs.length).map (assemble m nd outs), more, mores, N, ?_, by simp, hn1, hm1, hE1, ?_, ?_, ?_⟩
  · unfold refineFacets
    rw [hrun]
  · intro e he ft hft
    refine ⟨hN2 e he ft hft, ?_⟩
    obtain ⟨g1, g2, g3⟩ := hN2 e he ft hft
    have hdim : (mkJob fs coords ft e).dim = ft.count .inner := rfl
    rcases Nat.eq_zero_or_pos (ft.count .inner) with h0 | h0
    · rw [g1 h0, h0, pow_zero]
      simp only [Job.corners, mkJob, facetCorners_length, h0, pow_zero]
    · by_cases hD : ft.count .inner = D
      · have hc : ∃ tc, (mkJob fs coords ft e).coords = some tc := by
          rcases hsrc with ⟨rfl, rfl, rfl⟩ | ⟨hlt, _⟩
          · exact ⟨tcf e, rfl⟩
          · have := count_le_length ft
            rw [mem_facetTypes.mp hft] at this
            omega
        obtain ⟨tc, htc⟩ := hc
        have := congrArg List.length (g2 h0 hD tc htc)
        simpa [slice_true_length, mkJob] using this
      · have hle : ft.count .inner ≤ D := by
          have := count_le_length ft
          rw [mem_facetTypes.mp hft] at this
          rcases hsrc with ⟨_, h, _⟩ | ⟨h, _⟩ <;> omega
        obtain ⟨o, tn, perm, _, hperm, hns⟩ := g3 h0 (by rw [hdim]; omega)
        rw [hns, List.length_map]
        have := (C26_entry_is_permutation _ _ _ _ hperm).2.length_eq
        simpa [hdim] using this
  · intro e he
    have hres : ((List.range fs.length).map (assemble m nd outs)).getD e [] = assemble m nd outs e := by
      rw [List.getD_eq_getElem _ _ (by simpa using he)]
      simp
    rw [hres]
    refine ⟨assemble_length m nd outs e, fun ft hft p I n hI hnp => ?_⟩
    refine assemble_get hm (N e) ?_ ?_ hft hI hnp
    · rw [hN1]
      intro o ho hoe
      obtain ⟨⟨ft', e'⟩, ht, rfl⟩ := List.mem_map.mp ho
      rw [List.mem_product] at ht
      simp only at hoe
      subst hoe
      exact ⟨ht.1, rfl⟩
    · intro ft' hft'
      rw [hN1]
      exact List.mem_map.mpr ⟨(ft', e), List.mem_product.mpr ⟨hft', List.mem_range.mpr he⟩, rfl⟩
  · rw [← hN1]
    exact hA

end Verif.Core
