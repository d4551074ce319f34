import Verif.Props.C27

/-!
# C28: refinement adds nodes only, and each facet's nodes once
-/

set_option linter.unusedSectionVars false

namespace Verif.Core

open Verif.Common Verif.Spec

variable {K V : Type*} [Field K] [LinearOrder K] [IsStrictOrderedRing K] [AddCommGroup V] [Module K V]

/-! ### Corners -/

theorem facetSlice_corner (m : ℕ) (b : Bool) (I : List ℕ) (hI : ∀ x ∈ I, x < 2) :
    facetSlice m b (I.map (fun x => if x = 0 then FacetDim.first else FacetDim.last)) = [I.map (fun x => x * (m - 1))] := by
  unfold facetSlice
  induction I with
  | nil => rfl
  | cons x I ih =>
    have ih' := ih (fun y hy => hI y (List.mem_cons_of_mem _ hy))
    have hx := hI x List.mem_cons_self
    rw [List.map_cons, List.map_cons]
    simp only [cartesian]
    rw [ih']
    interval_cases x <;> simp [axisSlice]

theorem count_corner (I : List ℕ) :
    (I.map (fun x => if x = 0 then FacetDim.first else FacetDim.last)).count FacetDim.inner = 0 := by
  rw [List.count_eq_zero]
  intro h
  obtain ⟨x, _, hx⟩ := List.mem_map.mp h
  split at hx <;> cases hx

/-- The old nodes keep their numbers and coordinates, and each is the same corner of the same element. -/
theorem C28_old_nodes_kept {n : ℕ} {pm : Premesh1 V} (h : FirstOrder pm) (hn : 1 ≤ n) (nodes : Fin (n + 1) → K)
    (hends : nodes 0 = -1 ∧ nodes (Fin.last n) = 1) {r : Refined V} (hr : refinePremesh pm nodes = .ok r) :
    (∀ v < pm.nodeCoords.length, r.nodeCoords[v]? = pm.nodeCoords[v]?) ∧
    r.elements.length = pm.elements.length ∧
    ∀ (e : ℕ) (el : List ℕ), pm.elements[e]? = some el → ∃ ref, r.elements[e]? = some ref ∧ ref.length = (n + 1) ^ pm.ndim ∧
      ∀ c < 2 ^ pm.ndim, ∀ i < (n + 1) ^ pm.ndim, (∀ k < pm.ndim, digit (n + 1) pm.ndim k i = digit 2 pm.ndim k c * n) →
        ref[i]? = el[c]?.map (fun v : ℕ => (v : ℤ)) := by
  obtain ⟨tcf, st, els, more, mores, N, g1, _, g3, g4, g5, g6, g7, g8, g9, _⟩ := refine_ok h hn nodes hends
  obtain ⟨hre, hrn⟩ := g1 r hr
  refine ⟨fun v hv => ?_, by rw [hre, g4], fun e el hel => ?_⟩
  · rw [hrn, g5, List.getElem?_append_left hv]
  obtain ⟨he, hele⟩ := List.getElem?_eq_some_iff.mp hel
  have hgd : pm.elements.getD e [] = el := by rw [List.getD_eq_getElem _ _ he, hele]
  refine ⟨els.getD e [], ?_, (g9 e he).1, fun c hc i hi hdig => ?_⟩
  · rw [hre, List.getD_eq_getElem _ _ (by rw [g4]; exact he), List.getElem?_eq_getElem]
  have hlt2 : ∀ x ∈ digits 2 pm.ndim c, x < 2 := fun x hx => mem_digits_lt (by norm_num) hx
  set ft := (digits 2 pm.ndim c).map (fun x => if x = 0 then FacetDim.first else FacetDim.last) with hftdef
  have hft : ft ∈ facetTypes pm.ndim := by rw [mem_facetTypes, hftdef, List.length_map, digits_length]
  have hcount : ft.count .inner = 0 := count_corner _
  have hsl := facetSlice_corner (n + 1) true _ hlt2
  have hslc := facetSlice_corner 2 false _ hlt2
  have hIdig : (digits 2 pm.ndim c).map (fun x => x * (n + 1 - 1)) = digits (n + 1) pm.ndim i := by
    unfold digits
    rw [List.map_map]
    apply List.map_congr_left
    intro k hk
    simp only [Function.comp_apply, Nat.add_sub_cancel]
    exact (hdig k (List.mem_range.mp hk)).symm
  have hcl : c < el.length := by rw [h.width _ (List.mem_of_getElem? hel)]; exact hc
  have hcorner : facetCorners ft el = [el[c]] := by
    unfold facetCorners
    rw [hftdef, hslc]
    simp only [List.map_cons, List.map_nil]
    have : (digits 2 pm.ndim c).map (fun x => x * (2 - 1)) = digits 2 pm.ndim c := by simp
    rw [this, ravel_digits hc, List.getD_eq_getElem _ _ hcl]
  have hN : N e ft = [el[c]] := by
    rw [(g8 e he ft hft).1.1 hcount]
    simp only [Job.corners, mkJob, hgd]
    exact hcorner
  have := (g9 e he).2 ft hft 0 (digits (n + 1) pm.ndim i) el[c] (by rw [hftdef, hsl, hIdig]; rfl) (by rw [hN]; rfl)
  rw [ravel_digits hi] at this
  rw [this, List.getElem?_eq_getElem hcl]
  rfl

/-! ### New nodes -/

theorem slice_mem_cons {m : ℕ} {b : Bool} {f : FacetDim} {ft : List FacetDim} {x : ℕ} {I : List ℕ} :
    x :: I ∈ facetSlice m b (f :: ft) ↔ x ∈ axisSlice m b f ∧ I ∈ facetSlice m b ft := by
  unfold facetSlice
  rw [List.map_cons, mem_cartesian, mem_cartesian, List.forall₂_cons]

theorem slice_nonempty (ft : List FacetDim) : ∃ I, I ∈ facetSlice 2 false ft := by
  induction ft with
  | nil => exact ⟨[], by simp [facetSlice, cartesian]⟩
  | cons f ft ih =>
    obtain ⟨I, hI⟩ := ih
    refine ⟨(if f = .last then 1 else 0) :: I, slice_mem_cons.mpr ⟨?_, hI⟩⟩
    cases f <;> simp [axisSlice]

/-- A facet type is determined by the corners it selects. -/
theorem slice_inj : ∀ {ft ft' : List FacetDim}, ft.length = ft'.length →
    (∀ I, I ∈ facetSlice 2 false ft ↔ I ∈ facetSlice 2 false ft') → ft = ft'
  | [], [], _, _ => rfl
  | [], _ :: _, h, _ => by simp at h
  | _ :: _, [], h, _ => by simp at h
  | f :: ft, f' :: ft', hl, h => by
    have hax : ∀ x, x ∈ axisSlice 2 false f ↔ x ∈ axisSlice 2 false f' := by
      obtain ⟨I, hI⟩ := slice_nonempty ft
      obtain ⟨J, hJ⟩ := slice_nonempty ft'
      intro x
      constructor
      · intro hx
        exact (slice_mem_cons.mp ((h (x :: I)).mp (slice_mem_cons.mpr ⟨hx, hI⟩))).1
      · intro hx
        exact (slice_mem_cons.mp ((h (x :: J)).mpr (slice_mem_cons.mpr ⟨hx, hJ⟩))).1
    have hff : f = f' := by
      have h0 := hax 0
      have h1 := hax 1
      cases f <;> cases f' <;> first | rfl | (revert h0 h1; decide)
    subst hff
    congr 1
    refine slice_inj (by simpa using hl) (fun I => ?_)
    obtain ⟨x, hx⟩ : ∃ x, x ∈ axisSlice 2 false f := by cases f <;> exact ⟨_, List.mem_cons_self⟩
    constructor
    · intro hI
      exact (slice_mem_cons.mp ((h (x :: I)).mp (slice_mem_cons.mpr ⟨hx, hI⟩))).2
    · intro hI
      exact (slice_mem_cons.mp ((h (x :: I)).mpr (slice_mem_cons.mpr ⟨hx, hI⟩))).2

theorem corners_inj {D : ℕ} {el : List ℕ} (hlen : el.length = 2 ^ D) (hn : el.Nodup) {ft ft' : List FacetDim}
    (hft : ft.length = D) (hft' : ft'.length = D) (hp : (facetCorners ft el).Perm (facetCorners ft' el)) : ft = ft' := by
  have key : ∀ {f f' : List FacetDim}, f.length = D → f'.length = D → (facetCorners f el).Perm (facetCorners f' el) →
      ∀ I, I ∈ facetSlice 2 false f → I ∈ facetSlice 2 false f' := by
    intro f f' hf hf' hp I hI
    obtain ⟨hIl, hI2⟩ := (C25_slices_valid D 2 (by norm_num) false f hf).2 I hI
    have hi : ravel 2 I < el.length := by rw [hlen, ← hIl]; exact ravel_lt hI2
    have : el.getD (ravel 2 I) 0 ∈ facetCorners f' el := hp.subset (List.mem_map_of_mem hI)
    obtain ⟨J, hJ, hJe⟩ := List.mem_map.mp this
    obtain ⟨hJl, hJ2⟩ := (C25_slices_valid D 2 (by norm_num) false f' hf').2 J hJ
    have hj : ravel 2 J < el.length := by rw [hlen, ← hJl]; exact ravel_lt hJ2
    rw [List.getD_eq_getElem _ _ hi, List.getD_eq_getElem _ _ hj] at hJe
    have := ravel_inj hI2 hJ2 (by omega) ((List.Nodup.getElem_inj_iff hn).mp hJe.symm)
    rw [this]; exact hJ
  exact slice_inj (by omega) (fun I => ⟨key hft hft' hp I, key hft' hft hp.symm I⟩)

/-- Bookkeeping of a refinement: where the nodes inside each facet come from. -/
theorem blocks {n : ℕ} {pm : Premesh1 V} (h : FirstOrder pm) (hn : 1 ≤ n) (nodes : Fin (n + 1) → K)
    (hends : nodes 0 = -1 ∧ nodes (Fin.last n) = 1) {r : Refined V} (hr : refinePremesh pm nodes = .ok r) :
    ∃ N : ℕ → List FacetDim → List ℕ, pm.nodeCoords.length ≤ r.nodeCoords.length ∧
      (∀ e < pm.elements.length, ∀ ft ∈ facetTypes pm.ndim, (N e ft).length = (n - 1) ^ ft.count .inner) ∧
      (∀ e < pm.elements.length, (r.elements.getD e []).length = (n + 1) ^ pm.ndim ∧ ∀ ft ∈ facetTypes pm.ndim,
        ∀ (p : ℕ) (I : List ℕ) (v : ℕ), (facetSlice (n + 1) true ft)[p]? = some I →
        (N e ft)[p]? = some v → (r.elements.getD e [])[ravel (n + 1) I]? = some (v : ℤ)) ∧
      (∀ e < pm.elements.length, ∀ ft ∈ facetTypes pm.ndim, ft.count .inner = 0 →
        N e ft = facetCorners ft (pm.elements.getD e [])) ∧
      (∀ e < pm.elements.length, ∀ ft ∈ facetTypes pm.ndim, (N e ft).Nodup) ∧
      (∀ e < pm.elements.length, ∀ ft ∈ facetTypes pm.ndim, 0 < ft.count .inner →
        ∀ v ∈ N e ft, pm.nodeCoords.length ≤ v ∧ v < r.nodeCoords.length) ∧
      (∀ e < pm.elements.length, ∀ ft ∈ facetTypes pm.ndim, ∀ e' < pm.elements.length, ∀ ft' ∈ facetTypes pm.ndim,
        0 < ft.count .inner → 0 < ft'.count .inner → ∀ v, v ∈ N e ft → v ∈ N e' ft' →
        ft.count .inner = ft'.count .inner ∧
        (facetCorners ft (pm.elements.getD e [])).Perm (facetCorners ft' (pm.elements.getD e' [])) ∧
        (ft.count .inner = pm.ndim → e = e')) ∧
      (∀ v, pm.nodeCoords.length ≤ v → v < r.nodeCoords.length →
        ∃ e ft, e < pm.elements.length ∧ ft ∈ facetTypes pm.ndim ∧ v ∈ N e ft) := by
  obtain ⟨tcf, st, els, more, mores, N, g1, _, g3, g4, g5, g6, g7, g8, g9, g10, g11, _⟩ := refine_ok h hn nodes hends
  obtain ⟨hre, hrn⟩ := g1 r hr
  have hmm : n - 1 = n + 1 - 2 := by omega
  set full := fullOuts pm.ndim (((facetTypes pm.ndim) ×ˢ (List.range pm.elements.length)).map
        (fun t => (t.1, t.2, N t.2 t.1))) with hfull
  have hnd : ((mores.map (·.2.2)).flatten ++ full).Nodup := g10.nodup_iff.mpr List.nodup_range'
  rw [List.nodup_append] at hnd
  obtain ⟨hnd1, hnd2, hdisj⟩ := hnd
  rw [List.nodup_flatten] at hnd1
  have hfulldef : full = ((((facetTypes pm.ndim) ×ˢ (List.range pm.elements.length)).map
      (fun t => if t.1.count FacetDim.inner = pm.ndim ∧ 0 < pm.ndim then N t.2 t.1 else []))).flatten := by
    rw [hfull, fullOuts, List.map_map]
    rfl
  rw [hfulldef, List.nodup_flatten] at hnd2
  have hprodnd : ((facetTypes pm.ndim) ×ˢ (List.range pm.elements.length)).Nodup :=
    (facetTypes_nodup _).product List.nodup_range
  have hmemL : ∀ v, v ∈ (mores.map (·.2.2)).flatten ++ full ↔ pm.nodeCoords.length ≤ v ∧ v < r.nodeCoords.length := by
    intro v
    rw [g10.mem_iff, List.mem_range'_1, hrn, g5, List.length_append]
  have hcle : ∀ {ft : List FacetDim}, ft ∈ facetTypes pm.ndim → ft.count .inner ≤ pm.ndim := fun {ft} hft => by
    have := count_le_length ft
    rwa [mem_facetTypes.mp hft] at this
  have hgetD : ∀ {e}, e < pm.elements.length → pm.elements.getD e [] ∈ pm.elements := fun {e} he => by
    rw [List.getD_eq_getElem _ _ he]; exact List.getElem_mem he
  -- full blocks
  have hfullmem : ∀ e < pm.elements.length, ∀ ft ∈ facetTypes pm.ndim, 0 < ft.count .inner → ft.count .inner = pm.ndim →
      N e ft ∈ (((facetTypes pm.ndim) ×ˢ (List.range pm.elements.length)).map
      (fun t => if t.1.count FacetDim.inner = pm.ndim ∧ 0 < pm.ndim then N t.2 t.1 else [])) := by
    intro e he ft hft h0 hD
    rw [List.mem_map]
    refine ⟨(ft, e), List.mem_product.mpr ⟨hft, List.mem_range.mpr he⟩, ?_⟩
    simp only
    rw [if_pos ⟨hD, by omega⟩]
  -- blocks of shared facets
  have hshare : ∀ e < pm.elements.length, ∀ ft ∈ facetTypes pm.ndim, 0 < ft.count .inner → ft.count .inner < pm.ndim →
      ∃ x ∈ mores, x.1 = (facetCorners ft (pm.elements.getD e [])).insertionSort (· ≤ ·) ∧ (∀ v ∈ N e ft, v ∈ x.2.2) ∧
        (N e ft).Nodup ∧ ∀ v ∈ x.2.2, ∃ e' ft', e' < pm.elements.length ∧ ft' ∈ facetTypes pm.ndim ∧ v ∈ N e' ft' := by
    intro e he ft hft h0 hD
    obtain ⟨hout, hNl⟩ := g8 e he ft hft
    obtain ⟨orient, tn, perm, hget, hperm, hns⟩ := hout.2.2 h0 hD
    have hx := mappingGet_mem hget
    rw [g6] at hx
    have hpp := (C26_entry_is_permutation _ _ _ _ hperm).2
    have htl : tn.length = (n + 1 - 2) ^ ft.count .inner := by
      obtain ⟨e0, ft0, σ, fl, tn', _, _, _, _, _, _, hget', htl', _⟩ := shared_facet h g7 he hft hout h0 hD
      have : some (orient, tn) = some (facetCorners ft0 (pm.elements.getD e0 []), tn') := hget.symm.trans hget'
      obtain ⟨_, rfl⟩ := Prod.mk.inj (Option.some.inj this)
      exact htl'
    have hptn : (N e ft).Perm tn := by
      rw [hns]
      have h1 := hpp.map (fun i => tn.getD i 0)
      have h2 : (List.range ((n + 1 - 2) ^ ft.count .inner)).map (fun i => tn.getD i 0) = tn := by
        rw [← htl]; exact map_getD_range tn
      exact h1.trans (List.Perm.of_eq h2)
    refine ⟨_, hx, rfl, fun v hv => hptn.subset hv, ?_, fun v hv => ⟨e, ft, he, hft, hptn.symm.subset hv⟩⟩
    have := hnd1.1 tn (List.mem_map.mpr ⟨_, hx, rfl⟩)
    exact hptn.nodup_iff.mpr this
  refine ⟨N, ?_, ?_, ?_, ?_, ?_, ?_, ?_, ?_⟩
  · rw [hrn, g5]; simp
  · intro e he ft hft; rw [(g8 e he ft hft).2, hmm]
  · rw [hre]; exact g9
  · intro e he ft hft h0; exact (g8 e he ft hft).1.1 h0
  · intro e he ft hft
    rcases Nat.eq_zero_or_pos (ft.count .inner) with h0 | h0
    · rw [(g8 e he ft hft).1.1 h0]
      exact facetCorners_nodup (mem_facetTypes.mp hft) (h.width _ (hgetD he)) (h.distinct _ (hgetD he))
    · by_cases hD : ft.count .inner = pm.ndim
      · exact hnd2.1 _ (hfullmem e he ft hft h0 hD)
      · obtain ⟨_, _, _, _, hnd', _⟩ := hshare e he ft hft h0 (by have := hcle hft; omega)
        exact hnd'
  · intro e he ft hft h0 v hv
    rw [← hmemL, List.mem_append]
    by_cases hD : ft.count .inner = pm.ndim
    · right
      rw [hfulldef, List.mem_flatten]
      exact ⟨_, hfullmem e he ft hft h0 hD, hv⟩
    · obtain ⟨x, hx, _, hsub, _⟩ := hshare e he ft hft h0 (by have := hcle hft; omega)
      left
      rw [List.mem_flatten]
      exact ⟨_, List.mem_map.mpr ⟨x, hx, rfl⟩, hsub v hv⟩
  · intro e he ft hft e' he' ft' hft' h0 h0' v hv hv'
    have hc := hcle hft
    have hc' := hcle hft'
    by_cases hD : ft.count .inner = pm.ndim <;> by_cases hD' : ft'.count .inner = pm.ndim
    · -- two element interiors
      have hpair := hnd2.2
      rw [List.pairwise_map] at hpair
      have hee : (ft, e) = (ft', e') := by
        by_contra hne
        have : Std.Symm (fun a b : List FacetDim × ℕ =>
          (if List.count FacetDim.inner a.1 = pm.ndim ∧ 0 < pm.ndim then N a.2 a.1 else []).Disjoint
          (if List.count FacetDim.inner b.1 = pm.ndim ∧ 0 < pm.ndim then N b.2 b.1 else [])) :=
          ⟨fun a b hab => List.disjoint_symm hab⟩
        have := hpair.forall
          (List.mem_product.mpr ⟨hft, List.mem_range.mpr he⟩)
          (List.mem_product.mpr ⟨hft', List.mem_range.mpr he'⟩) hne
        simp only at this
        rw [if_pos ⟨hD, by omega⟩, if_pos ⟨hD', by omega⟩] at this
        exact List.disjoint_left.mp this hv hv'
      obtain ⟨rfl, rfl⟩ := Prod.mk.inj hee
      exact ⟨rfl, List.Perm.refl _, fun _ => rfl⟩
    · obtain ⟨x, hx, _, hsub, _⟩ := hshare e' he' ft' hft' h0' (by omega)
      exact absurd rfl (hdisj v (List.mem_flatten.mpr ⟨_, List.mem_map.mpr ⟨x, hx, rfl⟩, hsub v hv'⟩) v
        (by rw [hfulldef, List.mem_flatten]; exact ⟨_, hfullmem e he ft hft h0 hD, hv⟩))
    · obtain ⟨x, hx, _, hsub, _⟩ := hshare e he ft hft h0 (by omega)
      exact absurd rfl (hdisj v (List.mem_flatten.mpr ⟨_, List.mem_map.mpr ⟨x, hx, rfl⟩, hsub v hv⟩) v
        (by rw [hfulldef, List.mem_flatten]; exact ⟨_, hfullmem e' he' ft' hft' h0' hD', hv'⟩))
    · obtain ⟨x, hx, hxk, hsub, _⟩ := hshare e he ft hft h0 (by omega)
      obtain ⟨y, hy, hyk, hsub', _⟩ := hshare e' he' ft' hft' h0' (by omega)
      have hxy : x = y := by
        by_contra hne
        have hpair := hnd1.2
        rw [List.pairwise_map] at hpair
        have : Std.Symm (fun a b : List ℕ × List ℕ × List ℕ => a.2.2.Disjoint b.2.2) :=
          ⟨fun a b hab => List.disjoint_symm hab⟩
        have := hpair.forall hx hy hne
        exact List.disjoint_left.mp this (hsub v hv) (hsub' v hv')
      rw [hxy, hyk] at hxk
      have hp := (key_eq_iff.mp hxk).symm
      refine ⟨?_, hp, fun hh => absurd hh hD⟩
      have := hp.length_eq
      simp only [facetCorners_length] at this
      exact Nat.pow_right_injective (le_refl 2) this
  · intro v hv1 hv2
    have hmem := (hmemL v).mpr ⟨hv1, hv2⟩
    rw [List.mem_append] at hmem
    rcases hmem with hm | hm
    · obtain ⟨l, hl, hvl⟩ := List.mem_flatten.mp hm
      obtain ⟨x, hx, rfl⟩ := List.mem_map.mp hl
      obtain ⟨j, hj, tc, _, h1, h2, h3, h4, h5⟩ := g7 x (by rw [g6]; exact hx)
      obtain ⟨ft0, e0, hft0, he0, rfl⟩ := mem_refineJobs.mp hj
      obtain ⟨y, hy, hyk, _, _, hback⟩ := hshare e0 he0 ft0 hft0 h1 h2
      -- keys are distinct in the mapping
      have hxy : x = y := by
        rw [g6] at g11
        exact List.inj_on_of_nodup_map g11 hx hy (h3.trans hyk.symm)
      rw [hxy] at hvl
      exact hback v hvl
    · rw [hfulldef, List.mem_flatten] at hm
      obtain ⟨l, hl, hvl⟩ := hm
      obtain ⟨⟨ft, e⟩, ht, rfl⟩ := List.mem_map.mp hl
      rw [List.mem_product] at ht
      simp only at hvl
      split at hvl
      · exact ⟨e, ft, List.mem_range.mp ht.2, ht.1, hvl⟩
      · simp at hvl

/-- Corner `c` of a cell lies on the smallest facet containing the point `i` of the refined cell: `c` is at the low
(high) end of every axis on which `i` is. -/
def OnFacet (n D i c : ℕ) : Prop :=
  ∀ k < D, (digit (n + 1) D k i = 0 → digit 2 D k c = 0) ∧ (digit (n + 1) D k i = n → digit 2 D k c = 1)

theorem mem_slice_false_iff {n : ℕ} (hn : 1 ≤ n) {I J : List ℕ} (hJ : ∀ x ∈ J, x < 2) (hlen : I.length = J.length) :
    J ∈ facetSlice 2 false (I.map (fun i => if i = 0 then .first else if i = n + 1 - 1 then .last else .inner)) ↔
    ∀ k < I.length, (I.getD k 0 = 0 → J.getD k 0 = 0) ∧ (I.getD k 0 = n → J.getD k 0 = 1) := by
  unfold facetSlice
  rw [mem_cartesian, List.forall₂_iff_get]
  simp only [List.length_map, List.get_eq_getElem, List.getElem_map]
  constructor
  · rintro ⟨_, h⟩ k hk
    have := h k (by omega) hk
    rw [List.getD_eq_getElem _ _ hk, List.getD_eq_getElem _ _ (by omega : k < J.length)]
    by_cases h0 : I[k] = 0
    · rw [if_pos h0] at this
      simp [axisSlice] at this
      exact ⟨fun _ => this, fun h => by omega⟩
    · rw [if_neg h0] at this
      refine ⟨fun h => absurd h h0, fun h => ?_⟩
      rw [if_pos (by omega)] at this
      simpa [axisSlice] using this
  · intro h
    refine ⟨hlen.symm, fun k h1 h2 => ?_⟩
    have := h k h2
    rw [List.getD_eq_getElem _ _ h2, List.getD_eq_getElem _ _ h1] at this
    have hlt := hJ _ (List.getElem_mem h1)
    split
    · rename_i h0; simp [axisSlice, this.1 h0]
    · split
      · rename_i h0; simp [axisSlice, this.2 (by omega)]
      · have : J[k] = 0 ∨ J[k] = 1 := by omega
        rcases this with h | h <;> simp [axisSlice, h]

theorem digits_getD {b d k e : ℕ} (hk : k < d) : (digits b d e).getD k 0 = digit b d k e := by
  rw [List.getD_eq_getElem _ _ (by rw [digits_length]; exact hk)]
  simp [digits]

/-- The facet type of position `i`. -/
theorem position {n D i : ℕ} (hn : 1 ≤ n) (hi : i < (n + 1) ^ D) :
    ∃ ft ∈ facetTypes D, ∃ p : ℕ, (facetSlice (n + 1) true ft)[p]? = some (digits (n + 1) D i) ∧
      (∀ c < 2 ^ D, digits 2 D c ∈ facetSlice 2 false ft ↔ OnFacet n D i c) ∧
      (ft.count .inner = D ↔ ∀ k < D, 0 < digit (n + 1) D k i ∧ digit (n + 1) D k i < n) := by
  have hlt : ∀ x ∈ digits (n + 1) D i, x < n + 1 := fun x hx => mem_digits_lt (by omega) hx
  have hl : (digits (n + 1) D i).length = D := digits_length _ _ _
  set ft := (digits (n + 1) D i).map
    (fun i => if i = 0 then FacetDim.first else if i = n + 1 - 1 then .last else .inner) with hft
  have hmem : digits (n + 1) D i ∈ facetSlice (n + 1) true ft := by
    unfold facetSlice
    rw [mem_cartesian, List.forall₂_iff_get]
    refine ⟨by simp [hft], fun k h1 h2 => ?_⟩
    simp only [hft, List.get_eq_getElem, List.getElem_map]
    exact (axisSlice_interior_unique (by omega) (hlt _ (List.getElem_mem h1)) _).mpr rfl
  obtain ⟨p, hp⟩ := List.mem_iff_getElem?.mp hmem
  refine ⟨ft, by rw [mem_facetTypes, hft, List.length_map, hl], p, hp, fun c hc => ?_, ?_⟩
  · rw [hft, mem_slice_false_iff hn (fun x hx => mem_digits_lt (by norm_num) hx) (by rw [hl, digits_length]), hl]
    unfold OnFacet
    refine forall₂_congr fun k hk => ?_
    rw [digits_getD hk, digits_getD hk]
  · have h1 : ft.count .inner = D ↔ ∀ x ∈ ft, x = FacetDim.inner := by
      have : ft.length = D := by rw [hft, List.length_map, hl]
      conv_lhs => rw [← this]
      rw [List.count_eq_length]
      exact ⟨fun h x hx => (h x hx).symm, fun h x hx => (h x hx).symm⟩
    rw [h1, hft]
    constructor
    · intro h k hk
      have hkl : k < (digits (n + 1) D i).length := by omega
      have := h _ (List.mem_map_of_mem (List.getElem_mem hkl))
      rw [← digits_getD hk, List.getD_eq_getElem _ _ hkl]
      have hb := hlt _ (List.getElem_mem hkl)
      split at this
      · cases this
      · split at this
        · cases this
        · omega
    · intro h x hx
      obtain ⟨y, hy, rfl⟩ := List.mem_map.mp hx
      obtain ⟨k, hk, rfl⟩ := List.mem_iff_getElem.mp hy
      have := h k (by omega)
      rw [← digits_getD (by omega), List.getD_eq_getElem _ _ hk] at this
      rw [if_neg (by omega), if_neg (by omega)]

theorem mem_facetCorners_iff {D : ℕ} {el : List ℕ} (hl : el.length = 2 ^ D) {ft : List FacetDim} (hft : ft ∈ facetTypes D)
    {v : ℕ} : v ∈ facetCorners ft el ↔ ∃ c < 2 ^ D, digits 2 D c ∈ facetSlice 2 false ft ∧ el[c]? = some v := by
  unfold facetCorners
  rw [List.mem_map]
  constructor
  · rintro ⟨J, hJ, rfl⟩
    obtain ⟨hJl, hJ2⟩ := (C25_slices_valid D 2 (by norm_num) false ft (mem_facetTypes.mp hft)).2 J hJ
    have hlt : ravel 2 J < 2 ^ D := by rw [← hJl]; exact ravel_lt hJ2
    refine ⟨ravel 2 J, hlt, ?_, ?_⟩
    · rw [← hJl, digits_ravel hJ2]; exact hJ
    · rw [List.getD_eq_getElem _ _ (by omega), List.getElem?_eq_getElem]
  · rintro ⟨c, hc, hJ, hv⟩
    refine ⟨_, hJ, ?_⟩
    rw [ravel_digits hc, List.getD_eq_getElem?_getD, hv]; rfl

/-- Every entry of a refined element is the index of a node, and no node occurs twice in an element; together the
elements use every new node. -/
theorem C28_allocated_once {n : ℕ} {pm : Premesh1 V} (h : FirstOrder pm) (hn : 1 ≤ n) (nodes : Fin (n + 1) → K)
    (hends : nodes 0 = -1 ∧ nodes (Fin.last n) = 1) {r : Refined V} (hr : refinePremesh pm nodes = .ok r) :
    (∀ ref ∈ r.elements, ref.length = (n + 1) ^ pm.ndim ∧ ref.Nodup ∧ ∀ v ∈ ref, 0 ≤ v ∧ v < (r.nodeCoords.length : ℤ)) ∧
    ∀ v, pm.nodeCoords.length ≤ v → v < r.nodeCoords.length → ∃ ref ∈ r.elements, (v : ℤ) ∈ ref := by
  obtain ⟨N, hle, hNl, hels, hcor, hnd, hrange, hinj, hall⟩ := blocks h hn nodes hends hr
  have hlen := (C28_old_nodes_kept h hn nodes hends hr).2.1
  have hgetD : ∀ {e}, e < pm.elements.length → pm.elements.getD e [] ∈ pm.elements := fun {e} he => by
    rw [List.getD_eq_getElem _ _ he]; exact List.getElem_mem he
  have hcount : ∀ ft ∈ facetTypes pm.ndim, (facetSlice (n + 1) true ft).length = (n - 1) ^ ft.count .inner := by
    intro ft _
    rw [slice_true_length]; congr 1
  constructor
  · intro ref href
    obtain ⟨e, he', rfl⟩ := List.mem_iff_getElem.mp href
    have he : e < pm.elements.length := by omega
    have hg : r.elements.getD e [] = r.elements[e] := List.getD_eq_getElem _ _ he'
    obtain ⟨hl, hget⟩ := hels e he
    rw [hg] at hl hget
    have hval : ∀ i (hi : i < r.elements[e].length), ∃ ft ∈ facetTypes pm.ndim, ∃ (p v : ℕ),
        (facetSlice (n + 1) true ft)[p]? = some (digits (n + 1) pm.ndim i) ∧ (N e ft)[p]? = some v ∧
        r.elements[e][i] = (v : ℤ) := by
      intro i hi
      rw [hl] at hi
      obtain ⟨ft, hft, p, hp, _⟩ := position hn hi
      have hpl : p < (N e ft).length := by
        rw [hNl e he ft hft, ← hcount ft hft]
        exact (List.getElem?_eq_some_iff.mp hp).1
      refine ⟨ft, hft, p, (N e ft)[p], hp, List.getElem?_eq_getElem hpl, ?_⟩
      have := hget ft hft p _ _ hp (List.getElem?_eq_getElem hpl)
      rw [ravel_digits hi] at this
      exact (List.getElem?_eq_some_iff.mp this).2
    refine ⟨hl, ?_, ?_⟩
    · rw [List.nodup_iff_injective_getElem]
      rintro ⟨i, hi⟩ ⟨j, hj⟩ hij
      simp only at hij
      obtain ⟨ft, hft, p, v, hp, hv, hie⟩ := hval i hi
      obtain ⟨ft', hft', p', v', hp', hv', hje⟩ := hval j hj
      rw [hie, hje] at hij
      have hvv : v = v' := by exact_mod_cast hij
      subst hvv
      have hfeq : ft = ft' := by
        have hw := h.width _ (hgetD he)
        have hd := h.distinct _ (hgetD he)
        rcases Nat.eq_zero_or_pos (ft.count .inner) with h0 | h0 <;>
        rcases Nat.eq_zero_or_pos (ft'.count .inner) with h0' | h0'
        · rw [hcor e he ft hft h0] at hv
          rw [hcor e he ft' hft' h0'] at hv'
          apply corners_inj hw hd (mem_facetTypes.mp hft) (mem_facetTypes.mp hft')
          have l1 : (facetCorners ft (pm.elements.getD e [])).length = 1 := by rw [facetCorners_length, h0]; rfl
          have l2 : (facetCorners ft' (pm.elements.getD e [])).length = 1 := by rw [facetCorners_length, h0']; rfl
          obtain ⟨a, ha⟩ := List.length_eq_one_iff.mp l1
          obtain ⟨b, hb⟩ := List.length_eq_one_iff.mp l2
          have h1 := List.mem_of_getElem? hv
          have h2 := List.mem_of_getElem? hv'
          rw [ha, List.mem_singleton] at h1
          rw [hb, List.mem_singleton] at h2
          rw [ha, hb, ← h1, ← h2]
        · have := (hrange e he ft' hft' h0' v (List.mem_of_getElem? hv')).1
          rw [hcor e he ft hft h0] at hv
          obtain ⟨c, _, _, hc⟩ := (mem_facetCorners_iff hw hft).mp (List.mem_of_getElem? hv)
          have := h.valid _ (hgetD he) v (List.mem_of_getElem? hc)
          omega
        · have := (hrange e he ft hft h0 v (List.mem_of_getElem? hv)).1
          rw [hcor e he ft' hft' h0'] at hv'
          obtain ⟨c, _, _, hc⟩ := (mem_facetCorners_iff hw hft').mp (List.mem_of_getElem? hv')
          have := h.valid _ (hgetD he) v (List.mem_of_getElem? hc)
          omega
        · exact corners_inj hw hd (mem_facetTypes.mp hft) (mem_facetTypes.mp hft')
            (hinj e he ft hft e he ft' hft' h0 h0' v (List.mem_of_getElem? hv) (List.mem_of_getElem? hv')).2.1
      subst hfeq
      have hpp : p = p' := by
        obtain ⟨q1, e1⟩ := List.getElem?_eq_some_iff.mp hv
        obtain ⟨q2, e2⟩ := List.getElem?_eq_some_iff.mp hv'
        exact (List.Nodup.getElem_inj_iff (hnd e he ft hft)).mp (e1.trans e2.symm)
      subst hpp
      have := hp.symm.trans hp'
      have hd := Option.some.inj this
      have : i = j := by
        rw [← ravel_digits (by rwa [hl] at hi : i < (n + 1) ^ pm.ndim), hd, ravel_digits (by rwa [hl] at hj)]
      exact Fin.ext this
    · intro v hv
      obtain ⟨i, hi, rfl⟩ := List.mem_iff_getElem.mp hv
      obtain ⟨ft, hft, p, w, hp, hw, hie⟩ := hval i hi
      rw [hie]
      refine ⟨by positivity, ?_⟩
      rcases Nat.eq_zero_or_pos (ft.count .inner) with h0 | h0
      · rw [hcor e he ft hft h0] at hw
        obtain ⟨c, _, _, hc⟩ := (mem_facetCorners_iff (h.width _ (hgetD he)) hft).mp (List.mem_of_getElem? hw)
        have := h.valid _ (hgetD he) w (List.mem_of_getElem? hc)
        omega
      · have := (hrange e he ft hft h0 w (List.mem_of_getElem? hw)).2
        omega
  · intro v hv1 hv2
    obtain ⟨e, ft, he, hft, hv⟩ := hall v hv1 hv2
    obtain ⟨p, hp⟩ := List.mem_iff_getElem?.mp hv
    have hpl := (List.getElem?_eq_some_iff.mp hp).1
    rw [hNl e he ft hft, ← hcount ft hft] at hpl
    have := (hels e he).2 ft hft p _ v (List.getElem?_eq_getElem hpl) hp
    refine ⟨r.elements.getD e [], ?_, List.mem_of_getElem? this⟩
    rw [List.getD_eq_getElem _ _ (by omega)]
    exact List.getElem_mem _

/-- Two elements hold the same node only on a facet they share: the corners of the smallest facet around the node are
the same old nodes in both. A node strictly inside an element belongs to no other. -/
theorem C28_disjoint_interiors {n : ℕ} {pm : Premesh1 V} (h : FirstOrder pm) (hn : 1 ≤ n) (nodes : Fin (n + 1) → K)
    (hends : nodes 0 = -1 ∧ nodes (Fin.last n) = 1) {r : Refined V} (hr : refinePremesh pm nodes = .ok r)
    {e e' : ℕ} {el el' : List ℕ} {ref ref' : List ℤ} (hel : pm.elements[e]? = some el) (hel' : pm.elements[e']? = some el')
    (href : r.elements[e]? = some ref) (href' : r.elements[e']? = some ref') {i i' : ℕ} {v : ℤ}
    (hi : ref[i]? = some v) (hi' : ref'[i']? = some v) :
    (∀ w : ℕ, (∃ c < 2 ^ pm.ndim, OnFacet n pm.ndim i c ∧ el[c]? = some w) ↔
      ∃ c < 2 ^ pm.ndim, OnFacet n pm.ndim i' c ∧ el'[c]? = some w) ∧
    ((∀ k < pm.ndim, 0 < digit (n + 1) pm.ndim k i ∧ digit (n + 1) pm.ndim k i < n) → e = e') := by
  obtain ⟨N, hle, hNl, hels, hcor, hnd, hrange, hinj, hall⟩ := blocks h hn nodes hends hr
  have hcount : ∀ ft ∈ facetTypes pm.ndim, (facetSlice (n + 1) true ft).length = (n - 1) ^ ft.count .inner := by
    intro ft _
    rw [slice_true_length]; congr 1
  have key : ∀ {e : ℕ} {el : List ℕ} {ref : List ℤ} {i : ℕ}, pm.elements[e]? = some el → r.elements[e]? = some ref →
      ref[i]? = some v → e < pm.elements.length ∧ pm.elements.getD e [] = el ∧ ∃ ft ∈ facetTypes pm.ndim, ∃ u : ℕ, v = u ∧ u ∈ N e ft ∧
        (∀ w, w ∈ facetCorners ft el ↔ ∃ c < 2 ^ pm.ndim, OnFacet n pm.ndim i c ∧ el[c]? = some w) ∧
        (ft.count .inner = pm.ndim ↔ ∀ k < pm.ndim, 0 < digit (n + 1) pm.ndim k i ∧ digit (n + 1) pm.ndim k i < n) := by
    intro e el ref i hel href hi
    obtain ⟨he, hele⟩ := List.getElem?_eq_some_iff.mp hel
    obtain ⟨he', hrefe⟩ := List.getElem?_eq_some_iff.mp href
    have hgd : pm.elements.getD e [] = el := by rw [List.getD_eq_getElem _ _ he, hele]
    have hgr : r.elements.getD e [] = ref := by rw [List.getD_eq_getElem _ _ he', hrefe]
    refine ⟨he, hgd, ?_⟩
    obtain ⟨hl, hget⟩ := hels e he
    rw [hgr] at hl hget
    have hil : i < (n + 1) ^ pm.ndim := by rw [← hl]; exact (List.getElem?_eq_some_iff.mp hi).1
    obtain ⟨ft, hft, p, hp, hOn, hfull⟩ := position hn hil
    have hpl : p < (N e ft).length := by
      rw [hNl e he ft hft, ← hcount ft hft]
      exact (List.getElem?_eq_some_iff.mp hp).1
    have := hget ft hft p _ _ hp (List.getElem?_eq_getElem hpl)
    rw [ravel_digits hil, hi] at this
    refine ⟨ft, hft, (N e ft)[p], Option.some.inj this, List.getElem_mem hpl, fun w => ?_, hfull⟩
    rw [mem_facetCorners_iff (h.width _ (List.mem_of_getElem? hel)) hft]
    refine exists_congr fun c => and_congr_right fun hc => ?_
    rw [hOn c hc]
  obtain ⟨he, hg, ft, hft, u, huv, hu, hcorn, hfull⟩ := key hel href hi
  obtain ⟨he', hg', ft', hft', u', huv', hu', hcorn', hfull'⟩ := key hel' href' hi'
  have huu : u = u' := by rw [huv] at huv'; exact_mod_cast huv'
  subst huu
  have hold : ∀ {e : ℕ} {ft : List FacetDim} {el : List ℕ}, e < pm.elements.length → pm.elements.getD e [] = el → ft ∈ facetTypes pm.ndim →
      ft.count .inner = 0 → u ∈ N e ft → u < pm.nodeCoords.length ∧ ∀ w, w ∈ facetCorners ft el ↔ w = u := by
    intro e ft el he hg hft h0 hu
    have hmem : el ∈ pm.elements := by rw [← hg, List.getD_eq_getElem _ _ he]; exact List.getElem_mem he
    rw [hcor e he ft hft h0, hg] at hu
    have l1 : (facetCorners ft el).length = 1 := by rw [facetCorners_length, h0]; rfl
    obtain ⟨a, ha⟩ := List.length_eq_one_iff.mp l1
    obtain ⟨c, _, _, hc⟩ := (mem_facetCorners_iff (h.width _ hmem) hft).mp hu
    refine ⟨h.valid _ hmem u (List.mem_of_getElem? hc), fun w => ?_⟩
    rw [ha, List.mem_singleton] at hu
    rw [ha, List.mem_singleton, hu]
  have hpos := h.dim_pos
  rcases Nat.eq_zero_or_pos (ft.count .inner) with h0 | h0 <;>
  rcases Nat.eq_zero_or_pos (ft'.count .inner) with h0' | h0'
  · refine ⟨fun w => ?_, fun hh => ?_⟩
    · rw [← hcorn, ← hcorn', (hold he hg hft h0 hu).2, (hold he' hg' hft' h0' hu').2]
    · have := hfull.mpr hh; omega
  · have := (hold he hg hft h0 hu).1
    have := (hrange e' he' ft' hft' h0' u hu').1
    omega
  · have := (hold he' hg' hft' h0' hu').1
    have := (hrange e he ft hft h0 u hu).1
    omega
  · obtain ⟨h1, h2, h3⟩ := hinj e he ft hft e' he' ft' hft' h0 h0' u hu hu'
    rw [hg, hg'] at h2
    refine ⟨fun w => ?_, fun hh => h3 (hfull.mpr hh)⟩
    rw [← hcorn, ← hcorn', h2.mem_iff]

theorem flatMap_const_get {α β : Type*} {M : ℕ} (f : α → List β) : ∀ (l : List α), (∀ a ∈ l, (f a).length = M) →
    ∀ (e i : ℕ) (a : α), l[e]? = some a → i < M → (l.flatMap f)[e * M + i]? = (f a)[i]?
  | [], _, e, i, a, h, _ => by simp at h
  | b :: l, hl, 0, i, a, h, hi => by
    simp only [List.getElem?_cons_zero, Option.some.injEq] at h
    subst h
    rw [List.flatMap_cons, List.getElem?_append_left (by rw [hl b List.mem_cons_self]; omega)]
    simp
  | b :: l, hl, e + 1, i, a, h, hi => by
    have hb := hl b List.mem_cons_self
    have hx : (e + 1) * M + i - M = e * M + i := by rw [Nat.add_mul, one_mul]; omega
    rw [List.flatMap_cons, List.getElem?_append_right (by rw [hb, Nat.add_mul, one_mul]; omega), hb, hx]
    exact flatMap_const_get f l (fun a ha => hl a (List.mem_cons_of_mem _ ha)) e i a (by simpa using h) hi

/-- Target points that do not include both end points: every node belongs to exactly one position of one element, and
sits at the interpolated point. -/
theorem C28_discontinuous {n : ℕ} {pm : Premesh1 V} (hdim : 1 ≤ pm.ndim) (nodes : Fin (n + 1) → K)
    (hends : ¬ (nodes 0 = -1 ∧ nodes (Fin.last n) = 1)) {r : Refined V} (hr : refinePremesh pm nodes = .ok r) :
    r.elements.length = pm.elements.length ∧
    (∀ v < r.nodeCoords.length, ∃! x : ℕ × ℕ, (r.elements[x.1]?.getD [])[x.2]? = some (v : ℤ)) ∧
    ∀ (e : ℕ) (el : List ℕ), pm.elements[e]? = some el → ∃ ref, r.elements[e]? = some ref ∧ ref.length = (n + 1) ^ pm.ndim ∧
      ∀ i < (n + 1) ^ pm.ndim, ∃ v : ℕ, ref[i]? = some (v : ℤ) ∧
        r.nodeCoords[v]? = some (interpolated pm.ndim nodes pm.nodeCoords el i) := by
  obtain ⟨M, A, hM, hA, hcols, hent⟩ := interp_lin hdim nodes
  have hc : isContinuous nodes = false := by
    unfold isContinuous
    exact decide_eq_false hends
  unfold refinePremesh at hr
  simp only at hr
  split at hr
  · simp at hr
  split at hr
  · simp at hr
  rw [hM] at hr
  simp only [hA, hc, Bool.false_eq_true, if_false, Except.ok.injEq] at hr
  subst hr
  set P := (n + 1) ^ pm.ndim with hP
  have hPpos : 0 < P := by rw [hP]; positivity
  simp only
  have hel : ∀ e, ((List.range pm.elements.length).map (fun e =>
      (List.range P).map (fun i => ((e * P + i : ℕ) : ℤ))))[e]? =
      if e < pm.elements.length then some ((List.range P).map (fun i => ((e * P + i : ℕ) : ℤ))) else none := by
    intro e
    rw [List.getElem?_map]
    split
    · rename_i he; rw [List.getElem?_range he]; rfl
    · rename_i he; rw [List.getElem?_eq_none (by simpa using he)]; rfl
  have hent' : ∀ e i, e < pm.elements.length → i < P →
      ((List.range P).map (fun i => ((e * P + i : ℕ) : ℤ)))[i]? = some ((e * P + i : ℕ) : ℤ) := by
    intro e i _ hi
    rw [List.getElem?_map, List.getElem?_range hi]; rfl
  refine ⟨by simp, fun v hv => ?_, fun e el hele => ?_⟩
  · have htot : v < pm.elements.length * P := by
      rw [List.length_flatMap] at hv
      simpa using hv
    refine ⟨(v / P, v % P), ?_, ?_⟩
    · simp only [hel]
      rw [if_pos ((Nat.div_lt_iff_lt_mul hPpos).mpr htot), Option.getD_some,
        hent' _ _ ((Nat.div_lt_iff_lt_mul hPpos).mpr htot) (Nat.mod_lt _ hPpos)]
      have := Nat.div_add_mod' v P
      rw [this]
    · rintro ⟨e, i⟩ hx
      simp only [hel] at hx
      split at hx
      · rename_i he
        rw [Option.getD_some] at hx
        have hi : i < P := by simpa using (List.getElem?_eq_some_iff.mp hx).1
        rw [hent' e i he hi] at hx
        have : e * P + i = v := by exact_mod_cast Option.some.inj hx
        subst this
        rw [Nat.mul_comm e P, Nat.mul_add_div hPpos, Nat.div_eq_of_lt hi, Nat.mul_add_mod, Nat.mod_eq_of_lt hi, add_zero]
      · simp at hx
  · obtain ⟨he, _⟩ := List.getElem?_eq_some_iff.mp hele
    refine ⟨(List.range P).map (fun i => ((e * P + i : ℕ) : ℤ)), by rw [hel, if_pos he], by simp, fun i hi => ?_⟩
    refine ⟨e * P + i, hent' e i he hi, ?_⟩
    rw [flatMap_const_get _ pm.elements (fun a _ => by simp) e i el hele hi, List.getElem?_map, List.getElem?_range hi,
      Option.map_some]
    congr 1
    exact targetCoord_eq hcols hent pm.nodeCoords el hi

/-- Non-vacuity: two squares whose common edge is seen in opposite directions, refined with four points per axis,
and the same squares with two interior points per axis. -/
example : let pm : Premesh1 (ℚ × ℚ) := ⟨2, 1, [(0, 0), (0, 1), (1, 0), (1, 1), (2, 0), (2, 1)],
    [[0, 1, 2, 3], [5, 4, 3, 2]], [], none⟩
    FirstOrder pm ∧ (∃ r, refinePremesh pm (ncNode 4 (K := ℚ)) = .ok r ∧ r.nodeCoords.length = 28) ∧
    ∃ r, refinePremesh pm (![-1/2, 1/2] : Fin 2 → ℚ) = .ok r ∧ r.nodeCoords.length = 8 := by
  intro pm
  obtain ⟨h1, -⟩ := C27_low_dimension (n := 3) (pm := pm) (by decide) (by decide) rfl (by decide) (by decide)
    (by decide) (by norm_num) (ncNode 4 : Fin 4 → ℚ) (by constructor <;> decide +kernel)
  refine ⟨h1, ?_, ?_⟩
  · have h : ((refinePremesh pm (ncNode 4 (K := ℚ))).toOption.map (fun r => r.nodeCoords.length)) = some 28 := by
      decide +kernel
    cases hr : refinePremesh pm (ncNode 4 (K := ℚ)) with
    | error e => rw [hr] at h; simp [Except.toOption] at h
    | ok r => rw [hr] at h; exact ⟨r, rfl, by simpa [Except.toOption] using h⟩
  · have h : ((refinePremesh pm (![-1/2, 1/2] : Fin 2 → ℚ)).toOption.map (fun r => r.nodeCoords.length)) = some 8 := by
      decide +kernel
    cases hr : refinePremesh pm (![-1/2, 1/2] : Fin 2 → ℚ) with
    | error e => rw [hr] at h; simp [Except.toOption] at h
    | ok r => rw [hr] at h; exact ⟨r, rfl, by simpa [Except.toOption] using h⟩

end Verif.Core
