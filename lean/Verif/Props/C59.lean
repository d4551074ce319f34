import Verif.Lemmas.RefinerFacets

/-!
# C59: refined physical groups and periodic links

The facets listed in physical groups and periodic links are refined after the elements, by looking up the nodes that the
elements put into the same facets. `FacetsOf pm fs` says that `fs` lists facets of elements of `pm` in tensor order.
-/

set_option linter.unusedSectionVars false

namespace Verif.Core

open Verif.Common Verif.Spec

variable {K V : Type*} [Field K] [LinearOrder K] [IsStrictOrderedRing K] [AddCommGroup V] [Module K V]

/-- The groups and links of the premesh list facets of its elements. -/
structure Boundary (pm : Premesh1 V) : Prop where
  groups : ∀ g ∈ pm.physicalGroups, g.2 ≠ [] ∧ FacetsOf pm g.2
  links : ∀ l, pm.periodicLinks = some l → FacetsOf pm (l.map (·.1)) ∧ FacetsOf pm (l.map (·.2))

theorem groups_ok {D m : ℕ} {st : RState V} : ∀ (gs : List (String × List (List ℕ))),
    (∀ g ∈ gs, g.2 ≠ [] ∧ ∃ res, refineFacets D m (D - 1) g.2 none st = .ok (st, res)) →
    ∃ out, refineGroups D m gs st = .ok (st, out) ∧
      List.Forall₂ (fun g o => o.1 = g.1 ∧ refineFacets D m (D - 1) g.2 none st = .ok (st, o.2)) gs out
  | [], _ => ⟨[], rfl, List.Forall₂.nil⟩
  | (name, fs) :: gs, h => by
    obtain ⟨hne, res, hres⟩ := h _ List.mem_cons_self
    obtain ⟨out, hout, hall⟩ := groups_ok gs (fun g hg => h g (List.mem_cons_of_mem _ hg))
    refine ⟨(name, res) :: out, ?_, List.Forall₂.cons ⟨rfl, hres⟩ hall⟩
    simp only [refineGroups]
    rw [if_neg hne, hres]
    simp only [hout]

/-- The refined facet list `fs'` corresponds to `fs`: same number of facets, and node `i` of a refined facet is a node of
the refined mesh. -/
def Listed (pm : Premesh1 V) (n : ℕ) (r : Refined V) (fs : List (List ℕ)) (fs' : List (List ℤ)) : Prop :=
  fs'.length = fs.length ∧ ∀ (j : ℕ) (f : List ℕ), fs[j]? = some f → ∃ f' : List ℤ, fs'[j]? = some f' ∧
    f'.length = (n + 1) ^ (pm.ndim - 1) ∧
    ∀ i < (n + 1) ^ (pm.ndim - 1), ∃ v : ℕ, f'[i]? = some (v : ℤ) ∧ v < r.nodeCoords.length

/-- Node `i` of every refined facet sits at the point interpolated from the corners of the facet. -/
def Placed (pm : Premesh1 V) {n : ℕ} (nodes : Fin (n + 1) → K) (r : Refined V) (fs : List (List ℕ))
    (fs' : List (List ℤ)) : Prop :=
  ∀ (j : ℕ) (f : List ℕ) (f' : List ℤ), fs[j]? = some f → fs'[j]? = some f' → ∀ (i v : ℕ), f'[i]? = some (v : ℤ) →
    r.nodeCoords[v]? = some (∑ c ∈ Finset.range (2 ^ (pm.ndim - 1)),
      (∏ k ∈ Finset.range (pm.ndim - 1),
        lin (at0 nodes (digit (n + 1) (pm.ndim - 1) k i)) (digit 2 (pm.ndim - 1) k c)) • pm.nodeCoords.getD (f.getD c 0) 0)

theorem listed_placed {n : ℕ} {pm : Premesh1 V} (h : FirstOrder pm) (hn : 1 ≤ n) (nodes : Fin (n + 1) → K)
    (hends : nodes 0 = -1 ∧ nodes (Fin.last n) = 1)
    {tcf : ℕ → List ℕ → V} {st : RState V} {more : List V} {N : ℕ → List FacetDim → List ℕ} {fs : List (List ℕ)}
    (hf : FacetsOf pm fs)
    (hE : ∀ x ∈ st.mapping, EntryOK (refineJobs pm.ndim pm.elements (some tcf)) pm.ndim (n + 1) st.nodes x)
    (hO : ∀ e < pm.elements.length, ∀ ft ∈ facetTypes pm.ndim,
        OutOK pm.ndim (n + 1) st (mkJob pm.elements (some tcf) ft e) (N e ft) ∧
        (N e ft).length = (n + 1 - 2) ^ ft.count .inner)
    (g3 : ∀ e I, I.length = pm.ndim → (∀ x ∈ I, x < n + 1) →
        tcf e I = interpolated pm.ndim nodes pm.nodeCoords (pm.elements.getD e []) (ravel (n + 1) I))
    (g5 : st.nodes = pm.nodeCoords ++ more) (r : Refined V) (hr : r.nodeCoords = st.nodes) :
    ∃ res, refineFacets pm.ndim (n + 1) (pm.ndim - 1) fs none st = .ok (st, res) ∧ Listed pm n r fs res ∧
      ((∀ i, nodes (Fin.rev i) = - nodes i) → OwnInverseF pm fs (n - 1) → Placed pm nodes r fs res) := by
  obtain ⟨res, NF, h1, h2, h3, h4⟩ := facets_ok h hn hf hE hO
  have hgetD : ∀ {l : List (List ℕ)} {e}, e < l.length → l.getD e [] ∈ l := fun {l e} he => by
    rw [List.getD_eq_getElem _ _ he]; exact List.getElem_mem he
  -- positions of a refined facet
  have hpos : ∀ e (he : e < fs.length), ∀ i < (n + 1) ^ (pm.ndim - 1), ∃ ft ∈ facetTypes (pm.ndim - 1), ∃ (p v : ℕ),
      (facetSlice (n + 1) true ft)[p]? = some (digits (n + 1) (pm.ndim - 1) i) ∧ (NF e ft)[p]? = some v ∧
      (res.getD e [])[i]? = some (v : ℤ) := by
    intro e he i hi
    have hlen : (digits (n + 1) (pm.ndim - 1) i).length = pm.ndim - 1 := digits_length _ _ _
    obtain ⟨ft, ⟨hft, hmem⟩, _⟩ := C25_interiors_tile (pm.ndim - 1) (n + 1) (by omega) _ hlen
      (fun x hx => mem_digits_lt (by omega) hx)
    obtain ⟨p, hI⟩ := List.mem_iff_getElem?.mp hmem
    have hp : p < (NF e ft).length := by
      rw [(h3 e he ft hft).2, ← slice_true_length]
      exact (List.getElem?_eq_some_iff.mp hI).1
    refine ⟨ft, hft, p, (NF e ft)[p], hI, List.getElem?_eq_getElem hp, ?_⟩
    have := (h4 e he).2 ft hft p _ _ hI (List.getElem?_eq_getElem hp)
    rwa [ravel_digits hi] at this
  refine ⟨res, h1, ⟨h2, fun j f hj => ?_⟩, fun hsym hown j f f' hj hj' i v hv => ?_⟩
  · obtain ⟨hjl, rfl⟩ := List.getElem?_eq_some_iff.mp hj
    refine ⟨res.getD j [], ?_, (h4 j hjl).1, fun i hi => ?_⟩
    · rw [List.getD_eq_getElem _ _ (by omega), List.getElem?_eq_getElem]
    · obtain ⟨ft, hft, p, v, hI, hv, hres⟩ := hpos j hjl i hi
      refine ⟨v, hres, ?_⟩
      rw [hr]
      rcases Nat.eq_zero_or_pos (ft.count .inner) with h0 | h0
      · rw [(h3 j hjl ft hft).1.1 h0] at hv
        have hm := facetCorners_mem (mem_facetTypes.mp hft) (hf.width _ (hgetD hjl)) v (List.mem_of_getElem? hv)
        have := hf.valid _ (hgetD hjl) v hm
        rw [g5, List.length_append]
        omega
      · obtain ⟨e0, ft0, σ, fl, tn, he0, hft0, hcnt, _, _, _, _, htl, hq, hco⟩ :=
          shared_facet_of h hf hE hjl hft (h3 j hjl ft hft).1 h0
        have hp : p < (n + 1 - 2) ^ ft.count .inner := by
          rw [← slice_true_length]
          exact (List.getElem?_eq_some_iff.mp hI).1
        obtain ⟨q, hpq, hnq⟩ := hq p hp
        have hqs : q < (facetSlice (n + 1) true ft0).length := by rw [slice_true_length, hcnt]; exact hpq.1
        have := hco q v _ (by rw [← hnq, hv]) (List.getElem?_eq_getElem hqs)
        exact (List.getElem?_eq_some_iff.mp this).1
  · obtain ⟨hjl, rfl⟩ := List.getElem?_eq_some_iff.mp hj
    have hf' : f' = res.getD j [] := by
      obtain ⟨hl, rfl⟩ := List.getElem?_eq_some_iff.mp hj'
      rw [List.getD_eq_getElem _ _ hl]
    subst hf'
    have hi : i < (n + 1) ^ (pm.ndim - 1) := by
      rw [← (h4 j hjl).1]; exact (List.getElem?_eq_some_iff.mp hv).1
    obtain ⟨ft, hft, p, w, hI, hw, hres⟩ := hpos j hjl i hi
    rw [hv] at hres
    have hvw : v = w := by exact_mod_cast Option.some.inj hres
    subst hvw
    have := facets_geometry h nodes hends hsym hf hown hE g3 g5 hjl hft (h3 j hjl ft hft).1 hI hw
    rw [ravel_digits hi, List.getD_eq_getElem _ _ hjl] at this
    rw [hr, this]
    rfl

/-- Refinement of a premesh with groups and links that list facets of its elements succeeds; groups keep their names and
order, every facet is refined, and every entry is a node of the refined mesh. -/
theorem C59_succeeds {n : ℕ} {pm : Premesh1 V} (h : FirstOrder pm) (hb : Boundary pm) (hn : 1 ≤ n)
    (nodes : Fin (n + 1) → K) (hends : nodes 0 = -1 ∧ nodes (Fin.last n) = 1) :
    ∃ r, refinePremesh pm nodes = .ok r ∧
      List.Forall₂ (fun g o => o.1 = g.1 ∧ Listed pm n r g.2 o.2) pm.physicalGroups r.physicalGroups ∧
      (pm.periodicLinks = none → r.periodicLinks = none) ∧
      ∀ l, pm.periodicLinks = some l → ∃ l', r.periodicLinks = some l' ∧ Listed pm n r (l.map (·.1)) (l'.map (·.1)) ∧
        Listed pm n r (l.map (·.2)) (l'.map (·.2)) := by
  obtain ⟨tcf, st, els, more, mores, N, _, _, g3, g4, g5, g6, g7, g8, _, _, _, g12⟩ := refine_ok h hn nodes hends
  have key : ∀ (r : Refined V), r.nodeCoords = st.nodes → ∀ fs, FacetsOf pm fs →
      ∃ res, refineFacets pm.ndim (n + 1) (pm.ndim - 1) fs none st = .ok (st, res) ∧ Listed pm n r fs res := by
    intro r hr fs hf
    obtain ⟨res, h1, h2, _⟩ := listed_placed h hn nodes hends hf g7 g8 g3 g5 r hr
    exact ⟨res, h1, h2⟩
  obtain ⟨out, hout, hall⟩ := groups_ok (D := pm.ndim) (m := n + 1) (st := st) pm.physicalGroups (fun g hg => by
    obtain ⟨h1, h2⟩ := hb.groups g hg
    obtain ⟨res, hres, _⟩ := key ⟨st.nodes, els, [], none⟩ rfl g.2 h2
    exact ⟨h1, res, hres⟩)
  have hgl : ∀ r : Refined V, r.nodeCoords = st.nodes → List.Forall₂ (fun g o => o.1 = g.1 ∧ Listed pm n r g.2 o.2)
      pm.physicalGroups out := by
    intro r hr
    rw [List.forall₂_iff_get] at hall ⊢
    refine ⟨hall.1, fun i h1 h2 => ?_⟩
    obtain ⟨e1, e2⟩ := hall.2 i h1 h2
    refine ⟨e1, ?_⟩
    obtain ⟨res, hres, hl⟩ := key r hr _ (hb.groups _ (List.get_mem _ ⟨i, h1⟩)).2
    rw [e2] at hres
    simp only [Except.ok.injEq, Prod.mk.injEq, true_and] at hres
    rw [hres]; exact hl
  rw [hout] at g12
  cases hl : pm.periodicLinks with
  | none =>
    rw [hl] at g12
    exact ⟨_, g12, hgl _ rfl, fun _ => rfl, fun l hh => by cases hh⟩
  | some l =>
    obtain ⟨hf1, hf2⟩ := hb.links l hl
    obtain ⟨r1, h1, hl1⟩ := key ⟨st.nodes, els, [], none⟩ rfl _ hf1
    obtain ⟨r2, h2, hl2⟩ := key ⟨st.nodes, els, [], none⟩ rfl _ hf2
    rw [hl] at g12
    simp only [h1, h2] at g12
    have hlen1 := hl1.1
    have hlen2 := hl2.1
    rw [List.length_map] at hlen1 hlen2
    have e1 : (r1.zip r2).map (·.1) = r1 := List.map_fst_zip (by omega)
    have e2 : (r1.zip r2).map (·.2) = r2 := List.map_snd_zip (by omega)
    refine ⟨_, g12, hgl _ rfl, fun hh => (by cases hh), fun l' hh => ?_⟩
    cases hh
    refine ⟨_, rfl, ?_, ?_⟩
    · rw [e1]; exact hl1
    · rw [e2]; exact hl2

/-- Node `i` of a refined facet sits at the point interpolated from the corners of the facet, for all groups and for both
sides of the links.

Partial: `OwnInverseF` is a restriction, as for `C27_geometry_partial`. -/
theorem C59_geometry_partial {n : ℕ} {pm : Premesh1 V} (h : FirstOrder pm) (hb : Boundary pm) (hn : 1 ≤ n)
    (nodes : Fin (n + 1) → K) (hends : nodes 0 = -1 ∧ nodes (Fin.last n) = 1)
    (hsym : ∀ i, nodes (Fin.rev i) = - nodes i) (hog : ∀ g ∈ pm.physicalGroups, OwnInverseF pm g.2 (n - 1))
    (hol : ∀ l, pm.periodicLinks = some l → OwnInverseF pm (l.map (·.1)) (n - 1) ∧ OwnInverseF pm (l.map (·.2)) (n - 1))
    {r : Refined V} (hr : refinePremesh pm nodes = .ok r) :
    List.Forall₂ (fun g o => o.1 = g.1 ∧ Placed pm nodes r g.2 o.2) pm.physicalGroups r.physicalGroups ∧
      ∀ l, pm.periodicLinks = some l → ∃ l', r.periodicLinks = some l' ∧
        Placed pm nodes r (l.map (·.1)) (l'.map (·.1)) ∧ Placed pm nodes r (l.map (·.2)) (l'.map (·.2)) := by
  obtain ⟨tcf, st, els, more, mores, N, _, _, g3, g4, g5, g6, g7, g8, _, _, _, g12⟩ := refine_ok h hn nodes hends
  have key : ∀ (r : Refined V), r.nodeCoords = st.nodes → ∀ fs, FacetsOf pm fs → OwnInverseF pm fs (n - 1) →
      ∃ res, refineFacets pm.ndim (n + 1) (pm.ndim - 1) fs none st = .ok (st, res) ∧ Placed pm nodes r fs res ∧
        res.length = fs.length := by
    intro r hr fs hf ho
    obtain ⟨res, h1, h2, h3⟩ := listed_placed h hn nodes hends hf g7 g8 g3 g5 r hr
    exact ⟨res, h1, h3 hsym ho, h2.1⟩
  obtain ⟨out, hout, hall⟩ := groups_ok (D := pm.ndim) (m := n + 1) (st := st) pm.physicalGroups (fun g hg => by
    obtain ⟨h1, h2⟩ := hb.groups g hg
    obtain ⟨res, hres, _⟩ := key ⟨st.nodes, els, [], none⟩ rfl g.2 h2 (hog g hg)
    exact ⟨h1, res, hres⟩)
  have hgl : ∀ r : Refined V, r.nodeCoords = st.nodes → List.Forall₂ (fun g o => o.1 = g.1 ∧ Placed pm nodes r g.2 o.2)
      pm.physicalGroups out := by
    intro r hr
    rw [List.forall₂_iff_get] at hall ⊢
    refine ⟨hall.1, fun i h1 h2 => ?_⟩
    obtain ⟨e1, e2⟩ := hall.2 i h1 h2
    refine ⟨e1, ?_⟩
    obtain ⟨res, hres, hl, _⟩ := key r hr _ (hb.groups _ (List.get_mem _ ⟨i, h1⟩)).2 (hog _ (List.get_mem _ ⟨i, h1⟩))
    rw [e2] at hres
    simp only [Except.ok.injEq, Prod.mk.injEq, true_and] at hres
    rw [hres]; exact hl
  rw [hout] at g12
  rw [hr] at g12
  cases hl : pm.periodicLinks with
  | none =>
    rw [hl] at g12
    simp only [Except.ok.injEq] at g12
    subst g12
    exact ⟨hgl _ rfl, fun l hh => by cases hh⟩
  | some l =>
    obtain ⟨hf1, hf2⟩ := hb.links l hl
    obtain ⟨ho1, ho2⟩ := hol l hl
    obtain ⟨r1, h1, hl1, hlen1⟩ := key ⟨st.nodes, els, [], none⟩ rfl _ hf1 ho1
    obtain ⟨r2, h2, hl2, hlen2⟩ := key ⟨st.nodes, els, [], none⟩ rfl _ hf2 ho2
    rw [hl] at g12
    simp only [h1, h2, Except.ok.injEq] at g12
    subst g12
    rw [List.length_map] at hlen1 hlen2
    have e1 : (r1.zip r2).map (·.1) = r1 := List.map_fst_zip (by omega)
    have e2 : (r1.zip r2).map (·.2) = r2 := List.map_snd_zip (by omega)
    refine ⟨hgl _ rfl, fun l' hh => ?_⟩
    cases hh
    refine ⟨_, rfl, ?_, ?_⟩
    · rw [e1]; exact hl1
    · rw [e2]; exact hl2

/-- Links can only be refined when every subfacet of the linked facets is a facet of an element. -/
theorem C59_links_needed {n : ℕ} {pm : Premesh1 V} (h : FirstOrder pm) (hg : pm.physicalGroups = []) (hn : 1 ≤ n)
    (nodes : Fin (n + 1) → K) (hends : nodes 0 = -1 ∧ nodes (Fin.last n) = 1) {r : Refined V}
    (hr : refinePremesh pm nodes = .ok r) {l : List (List ℕ × List ℕ)} (hl : pm.periodicLinks = some l)
    {x : List ℕ × List ℕ} (hx : x ∈ l) {ft' : List FacetDim} (hft' : ft'.length = pm.ndim - 1)
    (hc : ft'.count .inner ≠ 0) :
    ∃ el ∈ pm.elements, ∃ ft : List FacetDim, ft.length = pm.ndim ∧ (facetCorners ft el).Perm (facetCorners ft' x.1) := by
  obtain ⟨tcf, st, els, more, mores, N, _, _, g3, g4, g5, g6, g7, g8, _, _, _, g12⟩ := refine_ok h hn nodes hends
  rw [hr, hg, hl] at g12
  simp only [refineGroups] at g12
  cases h1 : refineFacets pm.ndim (n + 1) (pm.ndim - 1) (l.map (·.1)) none st with
  | error e => rw [h1] at g12; simp at g12
  | ok v =>
    obtain ⟨st', res⟩ := v
    have hfound := refineFacets_none_found h1 (List.mem_map_of_mem hx) hft' hc
    obtain ⟨y, hy⟩ := Option.ne_none_iff_exists'.mp hfound
    obtain ⟨j, hj, tc, _, _, _, h3, _, _⟩ := g7 _ (mappingGet_mem hy)
    obtain ⟨ft, e, hft, he, rfl⟩ := mem_refineJobs.mp hj
    refine ⟨pm.elements.getD e [], ?_, ft, mem_facetTypes.mp hft, key_eq_iff.mp h3.symm⟩
    rw [List.getD_eq_getElem _ _ he]; exact List.getElem_mem he

theorem weights_sum {n : ℕ} (nodes : Fin (n + 1) → K) (D i : ℕ) (hi : i < (n + 1) ^ D) :
    ∑ c ∈ Finset.range (2 ^ D), ∏ k ∈ Finset.range D, lin (at0 nodes (digit (n + 1) D k i)) (digit 2 D k c) = 1 := by
  have hml : ∀ I : List ℕ, ml (fun a b => lin (at0 nodes a) b) I (fun _ => (1 : K)) = 1 := by
    intro I
    induction I with
    | nil => rfl
    | cons a I ih =>
      simp only [ml, ih, smul_eq_mul, mul_one]
      unfold lin
      simp only [if_true, one_ne_zero, if_false]
      ring
  have h := ml_sum (K := K) (V := K) (fun a b => lin (at0 nodes a) b) (digits (n + 1) D i) (fun _ => (1 : K))
  rw [hml, digits_length] at h
  rw [h]
  apply Finset.sum_congr rfl
  intro c _
  rw [smul_eq_mul, mul_one]
  apply Finset.prod_congr rfl
  intro k hk
  rw [Finset.mem_range] at hk
  rw [List.getD_eq_getElem?_getD, digit_eq_getElem _ _ _ _ hk]
  rfl

/-- When the second facet of every link is the first one moved by `t`, the nodes of the refined links are paired by the
same translation: node `i` of one side is node `i` of the other side moved by `t`.

Partial: as `C59_geometry_partial`. -/
theorem C59_periodic_translation_partial {n : ℕ} {pm : Premesh1 V} (h : FirstOrder pm) (hb : Boundary pm) (hn : 1 ≤ n)
    (nodes : Fin (n + 1) → K) (hends : nodes 0 = -1 ∧ nodes (Fin.last n) = 1)
    (hsym : ∀ i, nodes (Fin.rev i) = - nodes i) (hog : ∀ g ∈ pm.physicalGroups, OwnInverseF pm g.2 (n - 1))
    {l : List (List ℕ × List ℕ)} (hl : pm.periodicLinks = some l)
    (hol : OwnInverseF pm (l.map (·.1)) (n - 1) ∧ OwnInverseF pm (l.map (·.2)) (n - 1))
    {r : Refined V} (hr : refinePremesh pm nodes = .ok r) (t : V)
    (ht : ∀ x ∈ l, ∀ c < 2 ^ (pm.ndim - 1),
      pm.nodeCoords.getD (x.2.getD c 0) 0 = pm.nodeCoords.getD (x.1.getD c 0) 0 + t) :
    ∃ l', r.periodicLinks = some l' ∧ l'.length = l.length ∧ ∀ y ∈ l', ∀ i < (n + 1) ^ (pm.ndim - 1),
      ∃ (v w : ℕ) (x : V), y.1[i]? = some (v : ℤ) ∧ y.2[i]? = some (w : ℤ) ∧ r.nodeCoords[v]? = some x ∧
        r.nodeCoords[w]? = some (x + t) := by
  obtain ⟨r', hr', _, _, hlist⟩ := C59_succeeds h hb hn nodes hends
  rw [hr] at hr'
  simp only [Except.ok.injEq] at hr'
  subst hr'
  obtain ⟨l', hl', hL1, hL2⟩ := hlist l hl
  obtain ⟨_, hgeo⟩ := C59_geometry_partial h hb hn nodes hends hsym hog
    (fun l1 h1 => by rw [hl] at h1; cases h1; exact hol) hr
  obtain ⟨l2, hl2, hP1, hP2⟩ := hgeo l hl
  rw [hl'] at hl2; cases hl2
  have hlen := hL1.1
  rw [List.length_map, List.length_map] at hlen
  refine ⟨l', hl', hlen, fun y hy i hi => ?_⟩
  obtain ⟨j, hj, rfl⟩ := List.mem_iff_getElem.mp hy
  have hjl : j < l.length := by omega
  have a1 : (l.map (·.1))[j]? = some l[j].1 := by rw [List.getElem?_map, List.getElem?_eq_getElem hjl]; rfl
  have a2 : (l.map (·.2))[j]? = some l[j].2 := by rw [List.getElem?_map, List.getElem?_eq_getElem hjl]; rfl
  have b1 : (l'.map (·.1))[j]? = some l'[j].1 := by rw [List.getElem?_map, List.getElem?_eq_getElem hj]; rfl
  have b2 : (l'.map (·.2))[j]? = some l'[j].2 := by rw [List.getElem?_map, List.getElem?_eq_getElem hj]; rfl
  obtain ⟨f1, c1, _, d1⟩ := hL1.2 j _ a1
  obtain ⟨f2, c2, _, d2⟩ := hL2.2 j _ a2
  rw [b1] at c1; cases c1
  rw [b2] at c2; cases c2
  obtain ⟨v, hv, _⟩ := d1 i hi
  obtain ⟨w, hw, _⟩ := d2 i hi
  refine ⟨v, w, _, hv, hw, hP1 j _ _ a1 b1 i v hv, ?_⟩
  rw [hP2 j _ _ a2 b2 i w hw]
  congr 1
  have hsum : ∀ c ∈ Finset.range (2 ^ (pm.ndim - 1)),
      (∏ k ∈ Finset.range (pm.ndim - 1),
        lin (at0 nodes (digit (n + 1) (pm.ndim - 1) k i)) (digit 2 (pm.ndim - 1) k c)) •
          pm.nodeCoords.getD (l[j].2.getD c 0) 0 =
      (∏ k ∈ Finset.range (pm.ndim - 1),
        lin (at0 nodes (digit (n + 1) (pm.ndim - 1) k i)) (digit 2 (pm.ndim - 1) k c)) •
          pm.nodeCoords.getD (l[j].1.getD c 0) 0 +
      (∏ k ∈ Finset.range (pm.ndim - 1),
        lin (at0 nodes (digit (n + 1) (pm.ndim - 1) k i)) (digit 2 (pm.ndim - 1) k c)) • t := by
    intro c hc
    rw [ht _ (List.getElem_mem hjl) c (Finset.mem_range.mp hc), smul_add]
  rw [Finset.sum_congr rfl hsum, Finset.sum_add_distrib, ← Finset.sum_smul, weights_sum nodes _ i hi, one_smul]

/-- In one and two dimensions a list of edges (points) of elements satisfies everything that is asked. -/
theorem C59_low_dimension {pm : Premesh1 V} (h1 : 1 ≤ pm.ndim) (h2 : pm.ndim ≤ 2) {fs : List (List ℕ)}
    (hw : ∀ f ∈ fs, f.length = 2 ^ (pm.ndim - 1)) (hd : ∀ f ∈ fs, f.Nodup)
    (hv : ∀ f ∈ fs, ∀ x ∈ f, x < pm.nodeCoords.length)
    (hedge : pm.ndim = 2 → ∀ f ∈ fs, ∃ el ∈ pm.elements, ∃ ft : List FacetDim, ft.length = 2 ∧
      (facetCorners ft el).Perm f) (mm : ℕ) :
    FacetsOf pm fs ∧ OwnInverseF pm fs mm := by
  refine ⟨⟨hw, hd, hv, fun f hf ft' hft' hc => ?_, matching_low h2 _ _⟩, ?_⟩
  · have hle := count_le_length ft'
    have hD : pm.ndim = 2 := by omega
    obtain ⟨el, hel, ft, hft, hp⟩ := hedge hD f hf
    have hl : ft'.length = 1 := by omega
    obtain ⟨a, rfl⟩ := List.length_eq_one_iff.mp hl
    have ha : a = .inner := by
      cases a
      · exact absurd rfl hc
      · exact absurd rfl hc
      · rfl
    subst ha
    refine ⟨el, hel, ft, by omega, ?_⟩
    have hfl : f.length = 2 := by rw [hw f hf, hD]; norm_num
    obtain ⟨x, y, rfl⟩ := List.length_eq_two.mp hfl
    exact hp
  · intro el _ f _ ft ft' _ _ _ h0 hlt σ fl hσ _
    have : ft.count .inner = 1 := by omega
    rw [this] at hσ ⊢
    exact involutive_one mm hσ

/-- Non-vacuity: two squares side by side (the second numbered backwards) with the left and right edge linked and the
bottom edges in a group; refined with four points per axis. -/
example : let pm : Premesh1 (ℚ × ℚ) := ⟨2, 1, [(0, 0), (0, 1), (1, 0), (1, 1), (2, 0), (2, 1)],
    [[0, 1, 2, 3], [5, 4, 3, 2]], [("bottom", [[0, 2], [4, 2]])], some [([1, 0], [5, 4])]⟩
    Boundary pm ∧ ∃ r, refinePremesh pm (ncNode 4 (K := ℚ)) = .ok r ∧ ∃ l, r.periodicLinks = some l ∧
      l.map (fun x => x.1.length) = [4] := by
  intro pm
  have hF := (C27_low_dimension (n := 3) (pm := pm) (by decide) (by decide) rfl (by decide) (by decide)
    (by decide) (by norm_num) (ncNode 4 : Fin 4 → ℚ) (by constructor <;> decide +kernel)).1
  have hB : Boundary pm := by
    refine ⟨?_, ?_⟩
    · intro g hg
      have : g = ("bottom", [[0, 2], [4, 2]]) := by simpa [pm] using hg
      subst this
      refine ⟨by simp, (C59_low_dimension (by decide) (by decide) (by decide) (by decide) (by decide) (fun _ f hf => ?_) 2).1⟩
      have : f = [0, 2] ∨ f = [4, 2] := by simpa using hf
      rcases this with rfl | rfl
      · exact ⟨[0, 1, 2, 3], by decide, [.inner, .first], rfl, by decide⟩
      · exact ⟨[5, 4, 3, 2], by decide, [.inner, .last], rfl, by decide⟩
    · intro l hl
      have : l = [([1, 0], [5, 4])] := by
        have : some [([1, 0], [5, 4])] = some l := hl
        exact (Option.some.inj this).symm
      subst this
      constructor
      · refine (C59_low_dimension (by decide) (by decide) (by decide) (by decide) (by decide) (fun _ f hf => ?_) 2).1
        have : f = [1, 0] := by simpa using hf
        subst this
        exact ⟨[0, 1, 2, 3], by decide, [.first, .inner], rfl, by decide⟩
      · refine (C59_low_dimension (by decide) (by decide) (by decide) (by decide) (by decide) (fun _ f hf => ?_) 2).1
        have : f = [5, 4] := by simpa using hf
        subst this
        exact ⟨[5, 4, 3, 2], by decide, [.first, .inner], rfl, by decide⟩
  refine ⟨hB, ?_⟩
  obtain ⟨r, hr, _, _, hl⟩ := C59_succeeds hF hB (by norm_num) (ncNode 4 : Fin 4 → ℚ) (by constructor <;> decide +kernel)
  obtain ⟨l', hl', h1, _⟩ := hl _ rfl
  refine ⟨r, hr, l', hl', ?_⟩
  have hlen : l'.length = 1 := by simpa using h1.1
  obtain ⟨a, rfl⟩ := List.length_eq_one_iff.mp hlen
  obtain ⟨f', hf', hf'l, _⟩ := h1.2 0 [1, 0] rfl
  simp only [List.map_cons, List.map_nil, List.getElem?_cons_zero, Option.some.injEq] at hf'
  simp only [List.map_cons, List.map_nil, hf', hf'l]
  rfl

end Verif.Core
