import Verif.Props.C59
import Verif.Props.C27

/-! Helper lemmas: meshes whose elements and facets list their corners in increasing order; boxes of a grid. -/

set_option linter.unusedSectionVars false

namespace Verif.Core

open Verif.Common Verif.Spec

/-! ### Boxes -/

/-- Number of axes along which a box has two values. -/
def freeAxes (et : List (List ℕ)) : ℕ := et.countP (fun l => l.length = 2)

/-- Every axis of the box has one value or two. -/
def IsBox (et : List (List ℕ)) : Prop := ∀ l ∈ et, l.length = 1 ∨ l.length = 2

/-- The corner of the box selected by the bits `I` of its free axes. -/
def pick : List (List ℕ) → List ℕ → List ℕ
  | [], _ => []
  | l :: et, I => if l.length = 2 then l.getD (I.headD 0) 0 :: pick et I.tail else l.getD 0 0 :: pick et I

/-- The sub box selected by a facet type of the free axes. -/
def sub : List (List ℕ) → List FacetDim → List (List ℕ)
  | [], _ => []
  | l :: et, ft => if l.length = 2 then (axisSlice 2 false (ft.headD .inner)).map (fun x => l.getD x 0) :: sub et ft.tail
    else l :: sub et ft

theorem isBox_tail {l : List ℕ} {et : List (List ℕ)} (h : IsBox (l :: et)) : IsBox et :=
  fun x hx => h x (List.mem_cons_of_mem _ hx)

theorem cartesian_box_length {et : List (List ℕ)} (h : IsBox et) : (cartesian et).length = 2 ^ freeAxes et := by
  induction et with
  | nil => rfl
  | cons l et ih =>
    have h1 := ih (isBox_tail h)
    rw [cartesian_length] at h1 ⊢
    rw [List.map_cons, List.prod_cons, h1]
    unfold freeAxes
    rcases h l List.mem_cons_self with hl | hl
    · rw [hl, List.countP_cons_of_neg (by simp [hl]), one_mul]
    · rw [hl, List.countP_cons_of_pos (by simp [hl]), pow_succ]; ring

theorem cartesian_pick {et : List (List ℕ)} (h : IsBox et) : ∀ {I : List ℕ}, I.length = freeAxes et → (∀ x ∈ I, x < 2) →
    (cartesian et)[ravel 2 I]? = some (pick et I) := by
  induction et with
  | nil =>
    intro I hI _
    have : I = [] := by simpa [freeAxes] using hI
    subst this; rfl
  | cons l et ih =>
    intro I hI h2
    have hb := isBox_tail h
    have hlen := cartesian_box_length hb
    rcases h l List.mem_cons_self with hl | hl
    · obtain ⟨a, rfl⟩ := List.length_eq_one_iff.mp hl
      have hf : freeAxes ([a] :: et) = freeAxes et := List.countP_cons_of_neg (by simp)
      rw [hf] at hI
      simp only [cartesian, List.flatMap_cons, List.flatMap_nil, List.append_nil, pick]
      rw [List.getElem?_map, ih hb hI h2]
      simp
    · obtain ⟨a, b, rfl⟩ := List.length_eq_two.mp hl
      have hf : freeAxes ([a, b] :: et) = freeAxes et + 1 := List.countP_cons_of_pos (by simp)
      rw [hf] at hI
      cases I with
      | nil => simp at hI
      | cons x I =>
        have hx := h2 x List.mem_cons_self
        have hIl : I.length = freeAxes et := by simpa using hI
        have hI2 : ∀ y ∈ I, y < 2 := fun y hy => h2 y (List.mem_cons_of_mem _ hy)
        have hr := ravel_lt hI2
        have hih := ih hb hIl hI2
        simp only [cartesian, List.flatMap_cons, List.flatMap_nil, List.append_nil, pick]
        rw [ravel_cons, hIl] at *
        interval_cases x
        · rw [zero_mul, zero_add, List.getElem?_append_left (by rw [List.length_map, hlen]; exact hr),
            List.getElem?_map, hih]
          simp
        · rw [one_mul, List.getElem?_append_right (by rw [List.length_map, hlen]; omega), List.length_map, hlen,
            Nat.add_sub_cancel_left, List.getElem?_map, hih]
          simp

theorem pick_slice {et : List (List ℕ)} (h : IsBox et) : ∀ {ft : List FacetDim}, ft.length = freeAxes et →
    (facetSlice 2 false ft).map (pick et) = cartesian (sub et ft) := by
  induction et with
  | nil =>
    intro ft hft
    have : ft = [] := by simpa [freeAxes] using hft
    subst this; rfl
  | cons l et ih =>
    intro ft hft
    have hb := isBox_tail h
    rcases h l List.mem_cons_self with hl | hl
    · obtain ⟨a, rfl⟩ := List.length_eq_one_iff.mp hl
      have hf : freeAxes ([a] :: et) = freeAxes et := List.countP_cons_of_neg (by simp)
      rw [hf] at hft
      simp only [sub, List.length_singleton, OfNat.one_ne_ofNat, if_false, cartesian, List.flatMap_cons,
        List.flatMap_nil, List.append_nil]
      rw [← ih hb hft, List.map_map]
      apply List.map_congr_left
      intro I _
      simp [pick]
    · obtain ⟨a, b, rfl⟩ := List.length_eq_two.mp hl
      have hf : freeAxes ([a, b] :: et) = freeAxes et + 1 := List.countP_cons_of_pos (by simp)
      rw [hf] at hft
      cases ft with
      | nil => simp at hft
      | cons f ft =>
        have hftl : ft.length = freeAxes et := by simpa using hft
        have hih := ih hb hftl
        unfold facetSlice at hih ⊢
        simp only [List.map_cons, cartesian, sub, List.length_cons, List.length_nil, List.headD_cons, List.tail_cons]
        rw [if_pos trivial]
        simp only [cartesian]
        rw [← hih, List.map_flatMap, List.flatMap_map]
        congr 1
        funext x
        rw [List.map_map, List.map_map]
        apply List.map_congr_left
        intro I _
        simp [pick]

/-- The corners of a facet of a box. -/
theorem facetCorners_box {et : List (List ℕ)} (h : IsBox et) (g : List ℕ → ℕ) {ft : List FacetDim}
    (hft : ft.length = freeAxes et) : facetCorners ft ((cartesian et).map g) = (cartesian (sub et ft)).map g := by
  unfold facetCorners
  rw [← pick_slice h hft, List.map_map]
  apply List.map_congr_left
  intro I hI
  obtain ⟨hIl, hI2⟩ := (C25_slices_valid ft.length 2 (by norm_num) false ft rfl).2 I hI
  rw [List.getD_eq_getElem?_getD, List.getElem?_map, cartesian_pick h (by omega) hI2]
  rfl

/-- Flat numbers of the points of a product of increasing lists increase. -/
theorem ravel_cartesian_sorted {b : ℕ} : ∀ {ls : List (List ℕ)}, (∀ l ∈ ls, l.Pairwise (· < ·)) →
    (∀ l ∈ ls, ∀ x ∈ l, x < b) → ((cartesian ls).map (ravel b)).Pairwise (· < ·)
  | [], _, _ => by simp [cartesian]
  | l :: ls, h, hb => by
    have ih := ravel_cartesian_sorted (b := b) (ls := ls) (fun m hm => h m (List.mem_cons_of_mem _ hm))
      (fun m hm => hb m (List.mem_cons_of_mem _ hm))
    have hl := h l List.mem_cons_self
    have hlen : ∀ t ∈ cartesian ls, t.length = ls.length ∧ ∀ x ∈ t, x < b := by
      intro t ht
      rw [mem_cartesian] at ht
      refine ⟨ht.length_eq, fun x hx => ?_⟩
      obtain ⟨k, hk, rfl⟩ := List.mem_iff_getElem.mp hx
      rw [List.forall₂_iff_get] at ht
      have hk' : k < ls.length := by rw [← ht.1]; exact hk
      exact hb _ (List.mem_cons_of_mem _ (List.getElem_mem hk')) _ (ht.2 k hk hk')
    simp only [cartesian]
    rw [List.map_flatMap, List.pairwise_flatMap]
    refine ⟨fun a ha => ?_, hl.imp_of_mem ?_⟩
    · rw [List.map_map, List.pairwise_map]
      rw [List.pairwise_map] at ih
      refine ih.imp_of_mem ?_
      intro s t hs ht hst
      simp only [Function.comp_apply, ravel_cons, (hlen s hs).1, (hlen t ht).1]
      omega
    · intro a c ha hc hac x hx y hy
      rw [List.map_map, List.mem_map] at hx hy
      obtain ⟨s, hs, rfl⟩ := hx
      obtain ⟨t, ht, rfl⟩ := hy
      simp only [Function.comp_apply, ravel_cons, (hlen s hs).1, (hlen t ht).1]
      have h1 := ravel_lt (hlen s hs).2
      rw [(hlen s hs).1] at h1
      calc a * b ^ ls.length + ravel b s < a * b ^ ls.length + b ^ ls.length := by omega
        _ = (a + 1) * b ^ ls.length := by ring
        _ ≤ c * b ^ ls.length := Nat.mul_le_mul_right _ hac
        _ ≤ _ := Nat.le_add_right _ _

/-! ### Meshes with increasing corners -/

theorem axisPerm_id (d : ℕ) : AxisPerm d id := Set.bijOn_id _

theorem cubeImage_id {m d p q : ℕ} (hm : 0 < m) (hp : p < m ^ d) (h : CubeImage m d id (fun _ => False) p q) : q = p := by
  have hd : digits m d q = digits m d p := by
    unfold digits
    apply List.map_congr_left
    intro k hk
    exact (h.2 k (List.mem_range.mp hk)).2 (by simp)
  rw [← ravel_digits h.1, ← ravel_digits hp, hd]

theorem cubeImage_self {m d p : ℕ} (hp : p < m ^ d) : CubeImage m d id (fun _ => False) p p :=
  ⟨hp, fun _ _ => ⟨fun h => h.elim, fun _ => rfl⟩⟩

theorem matching_refl {k : ℕ} (l : List ℕ) : Matching k l l id (fun _ => False) := by
  intro c hc q hq
  rw [cubeImage_id (by norm_num) hc hq]

/-- A symmetry that fixes all corners is trivial. -/
theorem involutive_of_matching_self {mm k : ℕ} {l : List ℕ} (hl : l.length = 2 ^ k) (hn : l.Nodup) {σ : ℕ → ℕ}
    {fl : ℕ → Prop} (hσ : AxisPerm k σ) (h : Matching k l l σ fl) : Involutive mm k σ fl := by
  have hdet := cubeImage_determined (σ' := id) (fl' := fun _ => False) hσ (by
    intro c hc q q' hq hq'
    have h1 := h c hc q hq
    rw [cubeImage_id (by norm_num) hc hq']
    have hql : q < l.length := by rw [hl]; exact hq.1
    have hcl : c < l.length := by rw [hl]; exact hc
    rw [List.getElem?_eq_getElem hql, List.getElem?_eq_getElem hcl, Option.some.injEq] at h1
    exact (List.Nodup.getElem_inj_iff hn).mp h1) (axisPerm_id k)
  intro p q r hp hpq hqr
  have hmm : 0 < mm ∨ k = 0 := by
    rcases Nat.eq_zero_or_pos mm with h | h
    · right
      by_contra hk
      rw [h, zero_pow hk] at hp
      omega
    · exact Or.inl h
  rcases hmm with hmm | hk
  · have e1 := cubeImage_id hmm hp (cubeImage_congr hdet hpq)
    have e2 := cubeImage_id hmm hpq.1 (cubeImage_congr hdet hqr)
    omega
  · subst hk
    have := hp; have := hpq.1; have := hqr.1
    simp only [pow_zero] at *
    omega

variable {K V : Type*} [Field K] [LinearOrder K] [IsStrictOrderedRing K] [AddCommGroup V] [Module K V]

theorem facetCorners_sorted {el : List ℕ} {D : ℕ} (hl : el.length = 2 ^ D) (hs : el.Pairwise (· < ·)) {ft : List FacetDim}
    (hft : ft.length = D) : (facetCorners ft el).Pairwise (· < ·) := by
  unfold facetCorners
  have h1 : ((facetSlice 2 false ft).map (ravel 2)).Pairwise (· < ·) := by
    unfold facetSlice
    refine ravel_cartesian_sorted ?_ ?_
    · intro l hl
      obtain ⟨f, _, rfl⟩ := List.mem_map.mp hl
      cases f <;> decide
    · intro l hl
      obtain ⟨f, _, rfl⟩ := List.mem_map.mp hl
      cases f <;> decide
  rw [List.pairwise_map] at h1 ⊢
  refine h1.imp_of_mem ?_
  intro I J hI hJ hIJ
  obtain ⟨hIl, hI2⟩ := (C25_slices_valid D 2 (by norm_num) false ft hft).2 I hI
  obtain ⟨hJl, hJ2⟩ := (C25_slices_valid D 2 (by norm_num) false ft hft).2 J hJ
  have hi : ravel 2 I < el.length := by rw [hl, ← hIl]; exact ravel_lt hI2
  have hj : ravel 2 J < el.length := by rw [hl, ← hJl]; exact ravel_lt hJ2
  rw [List.getD_eq_getElem _ _ hi, List.getD_eq_getElem _ _ hj]
  exact List.pairwise_iff_getElem.mp hs _ _ hi hj hIJ

theorem eq_of_sorted_perm {l l' : List ℕ} (h : l.Pairwise (· < ·)) (h' : l'.Pairwise (· < ·)) (hp : l.Perm l') : l = l' :=
  hp.eq_of_pairwise (fun a b _ _ h1 h2 => absurd h2 (by omega)) h h'

theorem facetsMatch_of_sorted {D nd : ℕ} {fs els : List (List ℕ)} (hl : ∀ el ∈ els, el.length = 2 ^ D)
    (hs : ∀ el ∈ els, el.Pairwise (· < ·)) (hfl : ∀ f ∈ fs, f.length = 2 ^ nd) (hfs : ∀ f ∈ fs, f.Pairwise (· < ·)) :
    FacetsMatch D fs nd els := by
  intro el hel f hf ft ft' hft hft' _ _ _ hp
  rw [eq_of_sorted_perm (facetCorners_sorted (hl el hel) (hs el hel) hft)
    (facetCorners_sorted (hfl f hf) (hfs f hf) hft') hp]
  exact ⟨id, fun _ => False, axisPerm_id _, matching_refl _⟩

/-- Corners that match are the same corners. -/
theorem perm_of_matching {k : ℕ} {a b : List ℕ} (ha : a.length = 2 ^ k) (hb : b.length = 2 ^ k) (hn : a.Nodup)
    {σ : ℕ → ℕ} {fl : ℕ → Prop} (hσ : AxisPerm k σ) (h : Matching k a b σ fl) : a.Perm b := by
  refine (List.subperm_of_subset hn ?_).perm_of_length_le (by omega)
  intro x hx
  obtain ⟨c, hc, rfl⟩ := List.mem_iff_getElem.mp hx
  obtain ⟨q, hq⟩ := cubeImage_exists fl hσ (ha ▸ hc)
  have := h c (ha ▸ hc) q hq
  rw [List.getElem?_eq_getElem hc] at this
  exact List.mem_of_getElem? this

theorem involutive_of_sorted {mm D nd : ℕ} {el f : List ℕ} (hl : el.length = 2 ^ D) (hs : el.Pairwise (· < ·))
    (hfl : f.length = 2 ^ nd) (hfs : f.Pairwise (· < ·)) {ft ft' : List FacetDim} (hft : ft.length = D)
    (hft' : ft'.length = nd) (hc : ft'.count .inner = ft.count .inner) {σ : ℕ → ℕ} {fl : ℕ → Prop}
    (hσ : AxisPerm (ft.count .inner) σ) (h : Matching (ft.count .inner) (facetCorners ft el) (facetCorners ft' f) σ fl) :
    Involutive mm (ft.count .inner) σ fl := by
  have hl1 : (facetCorners ft el).length = 2 ^ ft.count .inner := facetCorners_length _ _
  have hl2 : (facetCorners ft' f).length = 2 ^ ft.count .inner := by rw [facetCorners_length, hc]
  have hs1 := facetCorners_sorted hl hs hft
  have he := eq_of_sorted_perm hs1 (facetCorners_sorted hfl hfs hft') (perm_of_matching hl1 hl2 (hs1.imp (fun h => Nat.ne_of_lt h)) hσ h)
  rw [← he] at h
  exact involutive_of_matching_self hl1 (hs1.imp (fun h => Nat.ne_of_lt h)) hσ h

end Verif.Core
