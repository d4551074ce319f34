import Verif.Lemmas.RefinerRun

/-! Helper lemmas for the mesh refiner: target coordinates and the whole of `refine_premesh`. -/

namespace Verif.Core

open Verif.Common Verif.Spec

variable {K V : Type*} [Field K] [LinearOrder K] [IsStrictOrderedRing K] [AddCommGroup V] [Module K V]

/-- The two linear shape functions on `[-1, 1]`. -/
def lin (x : K) (b : ℕ) : K := if b = 0 then (1 - x) / 2 else (1 + x) / 2

/-- A first order premesh with `2^d` distinct valid nodes per element, in which facets with the same corners match. -/
structure FirstOrder (pm : Premesh1 V) : Prop where
  dim_pos : 1 ≤ pm.ndim
  order_one : pm.order = 1
  width : ∀ el ∈ pm.elements, el.length = 2 ^ pm.ndim
  distinct : ∀ el ∈ pm.elements, el.Nodup
  valid : ∀ el ∈ pm.elements, ∀ x ∈ el, x < pm.nodeCoords.length
  matching : FacetsMatch pm.ndim pm.elements pm.ndim pm.elements

/-- The interpolation matrix and its entries. -/
theorem interp_lin {n D : ℕ} (hD : 1 ≤ D) (nodes : Fin (n + 1) → K) :
    ∃ M A, interpMatrix1d (ncWeight 2) (ncNode 2) nodes = some M ∧ interpMatrix D M = some A ∧ A.cols = 2 ^ D ∧
      ∀ i < (n + 1) ^ D, ∀ c < 2 ^ D, A.entry i c =
        ∏ k ∈ Finset.range D, lin (at0 nodes (digit (n + 1) D k i)) (digit 2 D k c) := by
  obtain ⟨M, hM, hex⟩ := C32_newton_cotes (K := K) 2 nodes
  obtain ⟨A, hA, _, hcols, hprod⟩ := C34_products (K := K) (q := n + 1) (n := 2) (d := D) (by omega) (by norm_num) hD M
  refine ⟨M, A, hM, hA, hcols, fun i hi c hc => ?_⟩
  -- entries of the one dimensional matrix
  have hnode : ∀ j : Fin 2, (ncNode 2 j : K) = if j = 0 then -1 else 1 := by
    intro j; fin_cases j <;> simp [ncNode]; norm_num
  have hentry : ∀ a (b : Fin 2), M a b = lin (nodes a) b := by
    intro a b
    have h1 := hex 1 (by rw [Polynomial.degree_one]; norm_num) a
    have h2 := hex Polynomial.X (by rw [Polynomial.degree_X]; norm_num) a
    simp only [Matrix.mulVec, dotProduct, Fin.sum_univ_two, Polynomial.eval_one, Polynomial.eval_X, hnode] at h1 h2
    simp only [if_true, one_ne_zero, if_false, mul_one] at h1 h2
    fin_cases b
    · simp only [lin]
      simp
      linarith
    · simp only [lin]
      simp
      linarith
  have h := hprod (fun k b => if b = digit 2 D k c then 1 else 0) i hi
  have hl : A.apply (fun j => ∏ k ∈ Finset.range D, (if digit 2 D k j = digit 2 D k c then (1 : K) else 0)) i =
      A.entry i c := by
    unfold NMat.apply
    rw [hcols, Finset.sum_eq_single c]
    · simp
    · intro j hj hjc
      rw [Finset.mem_range] at hj
      have : ∃ k ∈ Finset.range D, digit 2 D k j ≠ digit 2 D k c := by
        by_contra hcon
        push Not at hcon
        apply hjc
        rw [← ravel_digits hj, ← ravel_digits hc]
        congr 1
        unfold digits
        apply List.map_congr_left
        intro k hk
        exact hcon k (Finset.mem_range.mpr (List.mem_range.mp hk))
      obtain ⟨k, hk, hne⟩ := this
      beta_reduce
      rw [Finset.prod_eq_zero hk (if_neg hne), mul_zero]
    · intro hcon
      exact absurd (Finset.mem_range.mpr hc) hcon
  rw [hl] at h
  rw [h]
  apply Finset.prod_congr rfl
  intro k _
  have h1 := digit_lt (n + 1) D k i (by omega)
  have h2 := digit_lt 2 D k c (by norm_num)
  rw [at0, dif_pos h1, at0, dif_pos h1]
  simp only [Matrix.mulVec, dotProduct, mul_ite, mul_one, mul_zero]
  rw [Finset.sum_eq_single ⟨digit 2 D k c, h2⟩]
  · rw [if_pos rfl]; exact hentry _ _
  · intro b _ hb
    rw [if_neg (fun hc => hb (Fin.ext hc))]
  · intro hcon; exact absurd (Finset.mem_univ _) hcon

/-- The interpolated position of point `i` of an element with corners `el`. -/
def interpolated {n : ℕ} (D : ℕ) (nodes : Fin (n + 1) → K) (X : List V) (el : List ℕ) (i : ℕ) : V :=
  ∑ c ∈ Finset.range (2 ^ D),
    (∏ k ∈ Finset.range D, lin (at0 nodes (digit (n + 1) D k i)) (digit 2 D k c)) • X.getD (el.getD c 0) 0

theorem targetCoord_eq {n D : ℕ} {nodes : Fin (n + 1) → K} {A : NMat K} (hcols : A.cols = 2 ^ D)
    (hA : ∀ i < (n + 1) ^ D, ∀ c < 2 ^ D, A.entry i c =
        ∏ k ∈ Finset.range D, lin (at0 nodes (digit (n + 1) D k i)) (digit 2 D k c))
    (X : List V) (el : List ℕ) {i : ℕ} (hi : i < (n + 1) ^ D) : targetCoord A X el i = interpolated D nodes X el i := by
  unfold targetCoord interpolated
  rw [hcols]
  apply Finset.sum_congr rfl
  intro c hc
  rw [hA i hi c (Finset.mem_range.mp hc)]

omit [LinearOrder K] [IsStrictOrderedRing K] in
theorem interpolated_ml {n D : ℕ} (nodes : Fin (n + 1) → K) (X : List V) (el : List ℕ) {I : List ℕ} (hI : I.length = D)
    (hlt : ∀ x ∈ I, x < n + 1) : interpolated D nodes X el (ravel (n + 1) I) =
      ml (fun a b => lin (at0 nodes a) b) I (fun cs => X.getD (el.getD (ravel 2 cs) 0) 0) := by
  subst hI
  rw [ml_sum]
  unfold interpolated
  apply Finset.sum_congr rfl
  intro c hc
  rw [ravel_digits (Finset.mem_range.mp hc)]
  congr 1
  apply Finset.prod_congr rfl
  intro k hk
  rw [Finset.mem_range] at hk
  have := digit_eq_getElem (n + 1) I.length k (ravel (n + 1) I) hk
  rw [digits_ravel hlt] at this
  have hg : I.getD k 0 = digit (n + 1) I.length k (ravel (n + 1) I) := by
    rw [List.getD_eq_getElem?_getD, this]; rfl
  rw [hg]

/-- Interpolation inside a facet in terms of the corners of the facet. -/
theorem interpolated_facet {n D : ℕ} (nodes : Fin (n + 1) → K) (h0 : nodes 0 = -1) (h1 : nodes (Fin.last n) = 1)
    (X : List V) (el : List ℕ) {ft : List FacetDim} (hft : ft.length = D) {p : ℕ}
    (hp : p < (n + 1 - 2) ^ ft.count .inner) (I : List ℕ) (hI : (facetSlice (n + 1) true ft)[p]? = some I) :
    interpolated D nodes X el (ravel (n + 1) I) = ∑ c ∈ Finset.range (2 ^ ft.count .inner),
      facetWeight (fun a b => lin (at0 nodes a) b) (n + 1 - 2) (ft.count .inner) p c •
        X.getD ((facetCorners ft el).getD c 0) 0 := by
  obtain ⟨hIl, hIlt⟩ := (C25_slices_valid D (n + 1) (by omega) true ft hft).2 I (List.mem_of_getElem? hI)
  rw [interpolated_ml nodes X el hIl hIlt]
  have hIe : I = expand (n + 1) 1 ft (digits (n + 1 - 2) (ft.count .inner) p) := by
    rw [slice_true, List.getElem?_map, List.getElem?_range hp] at hI
    exact (Option.some.inj hI).symm
  have e0 : at0 nodes 0 = -1 := by rw [at0, dif_pos (by omega)]; exact h0
  have e1 : at0 nodes (n + 1 - 1) = 1 := by
    rw [at0, dif_pos (by omega)]
    exact h1
  have l00 : lin (at0 nodes 0) 0 = 1 := by rw [e0, lin, if_pos rfl]; norm_num
  have l01 : lin (at0 nodes 0) 1 = 0 := by rw [e0, lin, if_neg one_ne_zero]; norm_num
  have l10 : lin (at0 nodes (n + 1 - 1)) 0 = 0 := by rw [e1, lin, if_pos rfl]; norm_num
  have l11 : lin (at0 nodes (n + 1 - 1)) 1 = 1 := by rw [e1, lin, if_neg one_ne_zero]; norm_num
  rw [hIe, ml_expand _ (n + 1) l00 l01 l10 l11 ft _ (digits_length _ _ _)]
  rw [ml_sum, List.length_map, digits_length]
  apply Finset.sum_congr rfl
  intro c hc
  congr 1
  · unfold facetWeight
    apply Finset.prod_congr rfl
    intro k hk
    rw [Finset.mem_range] at hk
    have := digit_eq_getElem (n + 1 - 2) (ft.count .inner) k p hk
    rw [List.getD_eq_getElem?_getD, List.getElem?_map, this]
    rfl
  · rw [facetCorners_eq]
    rw [List.getD_eq_getElem?_getD (l := List.map _ _), List.getElem?_map, List.getElem?_range (Finset.mem_range.mp hc)]
    rfl

/-- What `refine_premesh` returns for the elements when the end points are included. -/
theorem refine_ok {n : ℕ} {pm : Premesh1 V} (h : FirstOrder pm) (hn : 1 ≤ n) (nodes : Fin (n + 1) → K)
    (hcont : nodes 0 = -1 ∧ nodes (Fin.last n) = 1) :
    ∃ (tcf : ℕ → List ℕ → V) (st : RState V) (els : List (List ℤ)) (more : List V)
      (mores : List (List ℕ × List ℕ × List ℕ)) (N : ℕ → List FacetDim → List ℕ),
      (∀ r : Refined V, refinePremesh pm nodes = .ok r → r.elements = els ∧ r.nodeCoords = st.nodes) ∧
      (pm.physicalGroups = [] → pm.periodicLinks = none → refinePremesh pm nodes = .ok ⟨st.nodes, els, [], none⟩) ∧
      (∀ e I, I.length = pm.ndim → (∀ x ∈ I, x < n + 1) →
        tcf e I = interpolated pm.ndim nodes pm.nodeCoords (pm.elements.getD e []) (ravel (n + 1) I)) ∧
      els.length = pm.elements.length ∧ st.nodes = pm.nodeCoords ++ more ∧ st.mapping = mores ∧
      (∀ x ∈ st.mapping, EntryOK (refineJobs pm.ndim pm.elements (some tcf)) pm.ndim (n + 1) st.nodes x) ∧
      (∀ e < pm.elements.length, ∀ ft ∈ facetTypes pm.ndim,
        OutOK pm.ndim (n + 1) st (mkJob pm.elements (some tcf) ft e) (N e ft) ∧
        (N e ft).length = (n + 1 - 2) ^ ft.count .inner) ∧
      (∀ e < pm.elements.length, (els.getD e []).length = (n + 1) ^ pm.ndim ∧ ∀ ft ∈ facetTypes pm.ndim,
        ∀ (p : ℕ) (I : List ℕ) (v : ℕ), (facetSlice (n + 1) true ft)[p]? = some I →
        (N e ft)[p]? = some v → (els.getD e [])[ravel (n + 1) I]? = some (v : ℤ)) ∧
      ((mores.map (·.2.2)).flatten ++ fullOuts pm.ndim (((facetTypes pm.ndim) ×ˢ (List.range pm.elements.length)).map
        (fun t => (t.1, t.2, N t.2 t.1)))).Perm (List.range' pm.nodeCoords.length more.length) ∧
      (st.mapping.map (·.1)).Nodup ∧
      refinePremesh pm nodes = (match refineGroups pm.ndim (n + 1) pm.physicalGroups st with
        | .error e => .error e
        | .ok (st2, groups) => match pm.periodicLinks with
          | none => .ok ⟨st.nodes, els, groups, none⟩
          | some links => match refineFacets pm.ndim (n + 1) (pm.ndim - 1) (links.map (·.1)) none st2 with
            | .error e => .error e
            | .ok (st3, l0) => match refineFacets pm.ndim (n + 1) (pm.ndim - 1) (links.map (·.2)) none st3 with
              | .error e => .error e
              | .ok (_, l1) => .ok ⟨st.nodes, els, groups, some (l0.zip l1)⟩) := by
  obtain ⟨M, A, hM, hA, hcols, hent⟩ := interp_lin h.dim_pos nodes
  obtain ⟨st, els, more, mores, N, g1, g2, g3, g4, g5, g6, g7, g8⟩ :=
    refineFacets_ok (D := pm.ndim) (m := n + 1) (nd := pm.ndim) (by omega) (els := pm.elements) (fs := pm.elements)
      (fun e I => targetCoord A pm.nodeCoords (pm.elements.getD e []) (ravel (n + 1) I))
      (some (fun e I => targetCoord A pm.nodeCoords (pm.elements.getD e []) (ravel (n + 1) I)))
      ⟨pm.nodeCoords, []⟩ h.width h.distinct (by simp) (Or.inl ⟨rfl, rfl, rfl⟩) h.matching
  have hc : isContinuous nodes = true := by
    unfold isContinuous
    exact decide_eq_true hcont
  refine ⟨fun e I => targetCoord A pm.nodeCoords (pm.elements.getD e []) (ravel (n + 1) I), st, els, more, mores, N,
    ?_, ?_, ?_, g2, g3, by simpa using g4, g5, g6, g7, g8, refineFacets_keys g1 (by simp), ?_⟩
  · intro r hr
    unfold refinePremesh at hr
    rw [if_neg (by rw [h.order_one]; simp), if_neg (by omega), hM] at hr
    simp only [hA, hc, if_true, g1] at hr
    cases hg : refineGroups pm.ndim (n + 1) pm.physicalGroups st with
    | error e => rw [hg] at hr; simp at hr
    | ok v =>
      obtain ⟨st2, groups⟩ := v
      rw [hg] at hr
      cases hl : pm.periodicLinks with
      | none =>
        rw [hl] at hr
        simp only [Except.ok.injEq] at hr
        subst hr
        exact ⟨rfl, rfl⟩
      | some links =>
        rw [hl] at hr
        simp only at hr
        cases h1 : refineFacets pm.ndim (n + 1) (pm.ndim - 1) (links.map (·.1)) none st2 with
        | error e => rw [h1] at hr; simp at hr
        | ok v1 =>
          rw [h1] at hr
          simp only at hr
          cases h2 : refineFacets pm.ndim (n + 1) (pm.ndim - 1) (links.map (·.2)) none v1.1 with
          | error e => rw [h2] at hr; simp at hr
          | ok v2 =>
            rw [h2] at hr
            simp only [Except.ok.injEq] at hr
            subst hr
            exact ⟨rfl, rfl⟩
  · intro hpg hpl
    unfold refinePremesh
    rw [if_neg (by rw [h.order_one]; simp), if_neg (by omega), hM]
    simp only [hA, hc, if_true, g1, hpg, hpl, refineGroups]
  · intro e I hI hlt
    apply targetCoord_eq hcols hent
    rw [← hI]
    exact ravel_lt hlt
  · unfold refinePremesh
    rw [if_neg (by rw [h.order_one]; simp), if_neg (by omega), hM]
    simp only [hA, hc, if_true, g1]
    rfl

end Verif.Core
