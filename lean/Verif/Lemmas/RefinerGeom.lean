import Verif.Lemmas.Refiner
import Verif.Props.C34_C35

/-! Helper lemmas for the mesh refiner: assembly, cube symmetries and multilinear interpolation. -/

namespace Verif.Core

open Verif.Common Verif.Spec

/-! ### Assembly -/

theorem assemble_length (m d : ℕ) (outs : List (List FacetDim × ℕ × List ℕ)) (e : ℕ) :
    (assemble m d outs e).length = m ^ d := by
  simp [assemble, cartesian_length]

theorem assemble_get {m d : ℕ} (hm : 2 ≤ m) {outs : List (List FacetDim × ℕ × List ℕ)} {e : ℕ}
    (N : List FacetDim → List ℕ) (h1 : ∀ o ∈ outs, o.2.1 = e → o.1 ∈ facetTypes d ∧ o.2.2 = N o.1)
    (h2 : ∀ ft ∈ facetTypes d, (ft, e, N ft) ∈ outs) {ft : List FacetDim} (hft : ft ∈ facetTypes d)
    {p : ℕ} {I : List ℕ} {n : ℕ} (hI : (facetSlice m true ft)[p]? = some I) (hn : (N ft)[p]? = some n) :
    (assemble m d outs e)[ravel m I]? = some (n : ℤ) := by
  have hlen := mem_facetTypes.mp hft
  have hmemI : I ∈ facetSlice m true ft := List.mem_of_getElem? hI
  obtain ⟨hnd, hval⟩ := C25_slices_valid d m (by omega) true ft hlen
  obtain ⟨hIl, hIlt⟩ := hval I hmemI
  have hrav : ravel m I < m ^ d := by rw [← hIl]; exact ravel_lt hIlt
  have hdig : digits m d (ravel m I) = I := by rw [← hIl]; exact digits_ravel hIlt
  unfold assemble
  simp only
  rw [cartesian_replicate_range, List.map_map, List.getElem?_map, List.getElem?_range hrav]
  simp only [Option.map_some, Function.comp_apply, hdig]
  set assigns := (outs.filter (fun o => o.2.1 = e)).flatMap (fun o => (facetSlice m true o.1).zip o.2.2) with hassigns
  have hmem : (I, n) ∈ assigns := by
    rw [hassigns, List.mem_flatMap]
    refine ⟨(ft, e, N ft), List.mem_filter.mpr ⟨h2 ft hft, by simp⟩, ?_⟩
    rw [List.mem_iff_getElem?]
    exact ⟨p, List.getElem?_zip_eq_some.mpr ⟨hI, hn⟩⟩
  have huniq : ∀ a ∈ assigns, a.1 = I → a.2 = n := by
    rintro ⟨J, n'⟩ ha hJ
    simp only at hJ
    subst hJ
    rw [hassigns, List.mem_flatMap] at ha
    obtain ⟨o, ho, hz⟩ := ha
    rw [List.mem_filter] at ho
    obtain ⟨ho1, ho2⟩ := ho
    simp only [decide_eq_true_eq] at ho2
    obtain ⟨hof, hoN⟩ := h1 o ho1 ho2
    obtain ⟨p', hp'⟩ := List.mem_iff_getElem?.mp hz
    obtain ⟨hp1, hp2⟩ := List.getElem?_zip_eq_some.mp hp'
    have hfe : o.1 = ft := by
      obtain ⟨f, _, hu⟩ := C25_interiors_tile d m hm J hIl hIlt
      rw [hu o.1 ⟨hof, List.mem_of_getElem? hp1⟩, hu ft ⟨hft, hmemI⟩]
    rw [hfe] at hp1
    have hpp : p' = p := by
      have ha := List.getElem?_eq_some_iff.mp hp1
      have hb := List.getElem?_eq_some_iff.mp hI
      exact (List.Nodup.getElem_inj_iff hnd).mp (ha.2.trans hb.2.symm)
    simp only at hp2
    rw [hoN, hfe, hpp, hn] at hp2
    exact (Option.some.inj hp2).symm
  cases hf : assigns.reverse.find? (fun a => decide (a.1 = I)) with
  | none =>
    rw [List.find?_eq_none] at hf
    have := hf (I, n) (List.mem_reverse.mpr hmem)
    simp at this
  | some a =>
    have ha1 := List.mem_reverse.mp (List.mem_of_find?_eq_some hf)
    have ha2 := List.find?_some hf
    simp only [decide_eq_true_eq] at ha2
    simp only [huniq a ha1 ha2]

/-! ### Cube symmetries -/

theorem digit_eq_getElem (b d k e : ℕ) (hk : k < d) : (digits b d e)[k]? = some (digit b d k e) := by
  simp [digits, hk]

theorem cubeImage_exists {m d : ℕ} {σ : ℕ → ℕ} (fl : ℕ → Prop) (_hσ : AxisPerm d σ) {p : ℕ} (hp : p < m ^ d) :
    ∃ q, CubeImage m d σ fl p q := by
  classical
  have hm : 0 < m ∨ d = 0 := by
    rcases Nat.eq_zero_or_pos m with h | h
    · right
      by_contra hd
      rw [h, zero_pow hd] at hp
      omega
    · exact Or.inl h
  let I := (List.range d).map (fun i => if fl i then m - 1 - digit m d (σ i) p else digit m d (σ i) p)
  have hI : ∀ x ∈ I, x < m := by
    intro x hx
    obtain ⟨i, hi, rfl⟩ := List.mem_map.mp hx
    rw [List.mem_range] at hi
    have hm' : 0 < m := by rcases hm with h | h <;> omega
    have := digit_lt m d (σ i) p hm'
    split <;> omega
  have hlen : I.length = d := by simp [I]
  have hdig : digits m d (ravel m I) = I := by
    have := digits_ravel hI
    rwa [hlen] at this
  refine ⟨ravel m I, by rw [← hlen]; exact ravel_lt hI, fun i hi => ?_⟩
  have : digit m d i (ravel m I) = if fl i then m - 1 - digit m d (σ i) p else digit m d (σ i) p := by
    have h := digit_eq_getElem m d i (ravel m I) hi
    rw [hdig] at h
    simp only [I, List.getElem?_map, List.getElem?_range hi, Option.map_some, Option.some.injEq] at h
    exact h.symm
  rw [this]
  exact ⟨fun h => by rw [if_pos h], fun h => by rw [if_neg h]⟩

/-- Composition of symmetries: first `(σ, fl)`, then `(σ', fl')`. -/
theorem cubeImage_comp {m d : ℕ} {σ σ' : ℕ → ℕ} {fl fl' : ℕ → Prop} (hσ' : AxisPerm d σ') {p q r : ℕ}
    (hp : p < m ^ d) (h : CubeImage m d σ fl p q) (h' : CubeImage m d σ' fl' q r) :
    CubeImage m d (fun i => σ (σ' i)) (fun i => ¬ (fl' i ↔ fl (σ' i))) p r := by
  refine ⟨h'.1, fun i hi => ?_⟩
  beta_reduce
  have hm : 0 < m := by
    rcases Nat.eq_zero_or_pos m with h0 | h0
    · rw [h0, zero_pow (by omega)] at hp; omega
    · exact h0
  have hk : σ' i < d := hσ'.mapsTo (show i ∈ {i | i < d} from hi)
  obtain ⟨a1, a2⟩ := h.2 _ hk
  obtain ⟨b1, b2⟩ := h'.2 i hi
  have hlt := digit_lt m d (σ (σ' i)) p hm
  by_cases hf : fl (σ' i) <;> by_cases hf' : fl' i
  · have h1 := a1 hf; have h2 := b1 hf'
    constructor
    · intro hx; exact absurd (by simp [hf, hf'] : (fl' i ↔ fl (σ' i))) hx
    · intro _; omega
  · have h1 := a1 hf; have h2 := b2 hf'
    constructor
    · intro _; omega
    · intro hx; exact absurd (fun hiff => hf' (hiff.mpr hf)) hx
  · have h1 := a2 hf; have h2 := b1 hf'
    constructor
    · intro _; omega
    · intro hx; exact absurd (fun hiff => hf (hiff.mp hf')) hx
  · have h1 := a2 hf; have h2 := b2 hf'
    constructor
    · intro hx; exact absurd (by simp [hf, hf'] : (fl' i ↔ fl (σ' i))) hx
    · intro _; omega

theorem digit_zero (b d k : ℕ) : digit b d k 0 = 0 := by simp [digit]

theorem digit_two_pow {d j k : ℕ} (hj : j < d) (hk : k < d) :
    digit 2 d k (2 ^ (d - 1 - j)) = if k = j then 1 else 0 := by
  unfold digit
  by_cases h : k = j
  · subst h
    rw [if_pos rfl, Nat.div_self (by positivity)]
  · rw [if_neg h]
    rcases lt_or_gt_of_ne h with hlt | hlt
    · have : 2 ^ (d - 1 - j) < 2 ^ (d - 1 - k) := Nat.pow_lt_pow_right (by norm_num) (by omega)
      rw [Nat.div_eq_of_lt this]
    · rw [Nat.pow_div (by omega) (by norm_num)]
      have : d - 1 - j - (d - 1 - k) = (d - 1 - j - (d - 1 - k) - 1) + 1 := by omega
      rw [this, pow_succ, Nat.mul_mod_left]

/-- A symmetry is determined by its action on the corners. -/
theorem cubeImage_determined {d : ℕ} {σ σ' : ℕ → ℕ} {fl fl' : ℕ → Prop} (hσ : AxisPerm d σ)
    (h : ∀ c < 2 ^ d, ∀ q q', CubeImage 2 d σ fl c q → CubeImage 2 d σ' fl' c q' → q = q') (hσ' : AxisPerm d σ') :
    ∀ i < d, σ i = σ' i ∧ (fl i ↔ fl' i) := by
  intro i hi
  have h0 : (0 : ℕ) < 2 ^ d := by positivity
  have hfl : fl i ↔ fl' i := by
    obtain ⟨q, hq⟩ := cubeImage_exists fl hσ h0
    obtain ⟨q', hq'⟩ := cubeImage_exists fl' hσ' h0
    have he := h 0 h0 q q' hq hq'
    subst he
    obtain ⟨a1, a2⟩ := hq.2 i hi
    obtain ⟨b1, b2⟩ := hq'.2 i hi
    rw [digit_zero] at a1 a2 b1 b2
    constructor
    · intro hf; by_contra hf'; have := a1 hf; have := b2 hf'; omega
    · intro hf; by_contra hf'; have := b1 hf; have := a2 hf'; omega
  refine ⟨?_, hfl⟩
  have hj : σ i < d := hσ.mapsTo (show i ∈ {i | i < d} from hi)
  have hj' : σ' i < d := hσ'.mapsTo (show i ∈ {i | i < d} from hi)
  have hc : 2 ^ (d - 1 - σ i) < 2 ^ d := Nat.pow_lt_pow_right (by norm_num) (by omega)
  obtain ⟨q, hq⟩ := cubeImage_exists fl hσ hc
  obtain ⟨q', hq'⟩ := cubeImage_exists fl' hσ' hc
  have he := h _ hc q q' hq hq'
  subst he
  obtain ⟨a1, a2⟩ := hq.2 i hi
  obtain ⟨b1, b2⟩ := hq'.2 i hi
  rw [digit_two_pow hj hj, if_pos rfl] at a1 a2
  rw [digit_two_pow hj hj'] at b1 b2
  by_contra hne
  have hne' : ¬ (σ' i = σ i) := fun h => hne h.symm
  rw [if_neg hne'] at b1 b2
  by_cases hf : fl i
  · have := a1 hf; have := b1 (hfl.mp hf); omega
  · have := a2 hf; have := b2 (fun h => hf (hfl.mpr h)); omega

theorem cubeImage_congr {m d : ℕ} {σ σ' : ℕ → ℕ} {fl fl' : ℕ → Prop} (h : ∀ i < d, σ i = σ' i ∧ (fl i ↔ fl' i))
    {p q : ℕ} (hpq : CubeImage m d σ fl p q) : CubeImage m d σ' fl' p q := by
  refine ⟨hpq.1, fun i hi => ?_⟩
  obtain ⟨h1, h2⟩ := h i hi
  obtain ⟨a, b⟩ := hpq.2 i hi
  rw [← h1, ← h2]
  exact ⟨a, b⟩

theorem axisPerm_comp {d : ℕ} {σ σ' : ℕ → ℕ} (h : AxisPerm d σ) (h' : AxisPerm d σ') :
    AxisPerm d (fun i => σ (σ' i)) := Set.BijOn.comp h h'

theorem key_of_matching {k : ℕ} {cur cur' : List ℕ} {σ : ℕ → ℕ} {fl : ℕ → Prop} (hσ : AxisPerm k σ)
    (hlen : cur.length = 2 ^ k) (hnd : cur'.Nodup) (h : Matching k cur cur' σ fl) :
    ∀ c < 2 ^ k, ∃ q, (cur.map (fun x => cur'.idxOf x))[c]? = some q ∧ CubeImage 2 k σ fl c q := by
  intro c hc
  obtain ⟨q, hq⟩ := cubeImage_exists fl hσ hc
  refine ⟨q, ?_, hq⟩
  have := h c hc q hq
  rw [List.getElem?_map]
  have hcl : c < cur.length := by omega
  rw [List.getElem?_eq_getElem hcl] at this ⊢
  obtain ⟨hql, hqe⟩ := List.getElem?_eq_some_iff.mp this
  simp only [Option.map_some, Option.some.injEq]
  rw [← hqe]
  exact hnd.idxOf_getElem q hql

theorem ordering_of_matching {k : ℕ} (mm : ℕ) {cur cur' : List ℕ} {σ : ℕ → ℕ} {fl : ℕ → Prop} (hσ : AxisPerm k σ)
    (hlen : cur.length = 2 ^ k) (hnd : cur'.Nodup) (h : Matching k cur cur' σ fl) :
    ∃ perm, orderingsGet k mm (cur.map (fun x => cur'.idxOf x)) = some perm ∧
      ∀ p < mm ^ k, ∃ q, perm[p]? = some q ∧ CubeImage mm k σ fl p q :=
  C26_complete k mm σ fl hσ _ (by simpa using hlen) (key_of_matching hσ hlen hnd h)

/-- Positions of a facet interior whose symmetries compose: with involutive `g`, `g'` from a common source and `h`
between the targets. -/
theorem involutive_triangle {k mm : ℕ} {o cur cur' : List ℕ} {σg σg' σh : ℕ → ℕ} {fg fg' fh : ℕ → Prop}
    (hg : AxisPerm k σg) (hg' : AxisPerm k σg') (hh : AxisPerm k σh) (hlc : cur'.length = 2 ^ k) (hnd : cur'.Nodup)
    (mg : Matching k o cur σg fg) (mg' : Matching k o cur' σg' fg') (mh : Matching k cur cur' σh fh)
    (ig : Involutive mm k σg fg) (ig' : Involutive mm k σg' fg') {p q a b : ℕ} (hp : p < mm ^ k)
    (hpq : CubeImage mm k σh fh p q) (hpa : CubeImage mm k σg fg p a) (hqb : CubeImage mm k σg' fg' q b) : a = b := by
  -- on the corners `h ∘ g = g'`
  have hdet := cubeImage_determined (axisPerm_comp hg hh) (fun c hc x y hx hy => by
    obtain ⟨z, hz⟩ := cubeImage_exists fg hg hc
    obtain ⟨x', hx'⟩ := cubeImage_exists fh hh hz.1
    have hxx : x = x' := cubeImage_unique hx (cubeImage_comp hh hc hz hx')
    subst hxx
    have e1 := mh z hz.1 x hx'
    have e2 := mg c hc z hz
    have e3 := mg' c hc y hy
    have hxl : x < cur'.length := by rw [hlc]; exact hx'.1
    have hyl : y < cur'.length := by rw [hlc]; exact hy.1
    have e4 : cur'[x]? = cur'[y]? := by rw [e1, e2, e3]
    rw [List.getElem?_eq_getElem hxl, List.getElem?_eq_getElem hyl, Option.some.injEq] at e4
    exact (List.Nodup.getElem_inj_iff hnd).mp e4) hg'
  -- `g a = p`
  have hap : CubeImage mm k σg fg a p := by
    obtain ⟨r, hr⟩ := cubeImage_exists fg hg hpa.1
    rw [← ig p a r hp hpa hr]
    exact hr
  have haq := cubeImage_congr hdet (cubeImage_comp hh hpa.1 hap hpq)
  exact (ig' a q b hpa.1 haq hqb).symm

/-! ### Multilinear interpolation -/

variable {K V : Type*} [Field K] [AddCommGroup V] [Module K V]

/-- Interpolation along each axis in turn. -/
def ml (w : ℕ → ℕ → K) : List ℕ → (List ℕ → V) → V
  | [], F => F []
  | i :: I, F => w i 0 • ml w I (fun cs => F (0 :: cs)) + w i 1 • ml w I (fun cs => F (1 :: cs))

theorem digit_succ (b n k c : ℕ) : digit b (n + 1) (k + 1) c = digit b n k c := by
  unfold digit
  have : n + 1 - 1 - (k + 1) = n - 1 - k := by omega
  rw [this]

theorem digit_add_top {n k r q : ℕ} (hk : k < n) : digit 2 n k (q * 2 ^ n + r) = digit 2 n k r := by
  have h := digits_add 2 n q r (by norm_num)
  have h1 := digit_eq_getElem 2 n k (q * 2 ^ n + r) hk
  have h2 := digit_eq_getElem 2 n k r hk
  rw [h, h2] at h1
  exact (Option.some.inj h1).symm

theorem ml_sum (w : ℕ → ℕ → K) (I : List ℕ) (F : List ℕ → V) : ml w I F =
    ∑ c ∈ Finset.range (2 ^ I.length),
      (∏ k ∈ Finset.range I.length, w (I.getD k 0) (digit 2 I.length k c)) • F (digits 2 I.length c) := by
  induction I generalizing F with
  | nil => simp [ml, digits]
  | cons i I ih =>
    have hstep : ∀ q < 2, ∀ r ∈ Finset.range (2 ^ I.length),
        (∏ k ∈ Finset.range (I.length + 1), w ((i :: I).getD k 0) (digit 2 (I.length + 1) k (q * 2 ^ I.length + r))) •
          F (digits 2 (I.length + 1) (q * 2 ^ I.length + r)) =
        w i q • ((∏ k ∈ Finset.range I.length, w (I.getD k 0) (digit 2 I.length k r)) •
          F (q :: digits 2 I.length r)) := by
      intro q hq r hr
      rw [Finset.mem_range] at hr
      rw [digits_cons 2 I.length q r hq hr, Finset.prod_range_succ', mul_comm, mul_smul]
      have h0 : digit 2 (I.length + 1) 0 (q * 2 ^ I.length + r) = q := by
        have := digit_eq_getElem 2 (I.length + 1) 0 (q * 2 ^ I.length + r) (by omega)
        rw [digits_cons 2 I.length q r hq hr] at this
        simpa using this.symm
      rw [h0]
      congr 2
      apply Finset.prod_congr rfl
      intro k hk
      rw [Finset.mem_range] at hk
      rw [digit_succ, digit_add_top hk, List.getD_cons_succ]
    rw [List.length_cons, pow_succ, Nat.mul_two, Finset.sum_range_add]
    simp only [ml]
    rw [ih, ih, Finset.smul_sum, Finset.smul_sum]
    congr 1
    · apply Finset.sum_congr rfl
      intro r hr
      have := hstep 0 (by norm_num) r hr
      rw [zero_mul, zero_add] at this
      exact this.symm
    · apply Finset.sum_congr rfl
      intro r hr
      have := hstep 1 (by norm_num) r hr
      rw [one_mul] at this
      exact this.symm

/-- Interpolation at a point of a facet only involves the corners of the facet. -/
theorem ml_expand (w : ℕ → ℕ → K) (m : ℕ) (h00 : w 0 0 = 1) (h01 : w 0 1 = 0) (h10 : w (m - 1) 0 = 0)
    (h11 : w (m - 1) 1 = 1) (ft : List FacetDim) (J : List ℕ) (hJ : J.length = ft.count .inner)
    (F : List ℕ → V) : ml w (expand m 1 ft J) F = ml w (J.map (· + 1)) (fun cs => F (expand 2 0 ft cs)) := by
  induction ft generalizing J F with
  | nil =>
    have : J = [] := List.eq_nil_of_length_eq_zero (by simpa using hJ)
    subst this
    rfl
  | cons f ft ih =>
    cases f with
    | first =>
      rw [List.count_cons_of_ne (by decide)] at hJ
      simp only [expand, ml, h00, h01, one_smul, zero_smul, add_zero]
      exact ih J hJ _
    | last =>
      rw [List.count_cons_of_ne (by decide)] at hJ
      simp only [expand, ml, h10, h11, one_smul, zero_smul, zero_add]
      exact ih J hJ _
    | inner =>
      rw [List.count_cons_self] at hJ
      cases J with
      | nil => simp at hJ
      | cons j J =>
        simp only [expand, ml, List.map_cons]
        rw [ih J (by simpa using hJ), ih J (by simpa using hJ)]

/-- Weight of corner `c` at interior point `p`. -/
def facetWeight (w : ℕ → ℕ → K) (mm k p c : ℕ) : K :=
  ∏ i ∈ Finset.range k, w (digit mm k i p + 1) (digit 2 k i c)

theorem facetWeight_symm (w : ℕ → ℕ → K) (mm k : ℕ) (hw : ∀ a < mm, ∀ b < 2, w (mm - 1 - a + 1) (1 - b) = w (a + 1) b)
    {σ : ℕ → ℕ} {fl : ℕ → Prop} (hσ : AxisPerm k σ) {p q c c' : ℕ} (hmm : 0 < mm)
    (hpq : CubeImage mm k σ fl p q) (hcc : CubeImage 2 k σ fl c c') :
    facetWeight w mm k q c' = facetWeight w mm k p c := by
  unfold facetWeight
  refine Finset.prod_nbij σ ?_ ?_ ?_ ?_
  · intro i hi
    exact Finset.mem_range.mpr (hσ.mapsTo (show i ∈ {i | i < k} from Finset.mem_range.mp hi))
  · intro a ha b hb hab
    have ha' := Finset.mem_range.mp (Finset.mem_coe.mp ha)
    have hb' := Finset.mem_range.mp (Finset.mem_coe.mp hb)
    exact hσ.injOn ha' hb' hab
  · intro j hj
    obtain ⟨i, hi, rfl⟩ := hσ.surjOn (show j ∈ {i | i < k} from Finset.mem_range.mp (Finset.mem_coe.mp hj))
    exact ⟨i, Finset.mem_coe.mpr (Finset.mem_range.mpr hi), rfl⟩
  · intro i hi
    rw [Finset.mem_range] at hi
    obtain ⟨a1, a2⟩ := hpq.2 i hi
    obtain ⟨b1, b2⟩ := hcc.2 i hi
    by_cases hf : fl i
    · rw [a1 hf, b1 hf]
      exact hw _ (digit_lt mm k _ p hmm) _ (digit_lt 2 k _ c (by norm_num))
    · rw [a2 hf, b2 hf]

/-- Interpolating at corresponding points of two facets with matching corners. -/
theorem facet_sum_symm (w : ℕ → ℕ → K) (mm k : ℕ)
    (hw : ∀ a < mm, ∀ b < 2, w (mm - 1 - a + 1) (1 - b) = w (a + 1) b)
    {σ : ℕ → ℕ} {fl : ℕ → Prop} (hσ : AxisPerm k σ) {p q : ℕ} (hmm : 0 < mm) (hpq : CubeImage mm k σ fl p q)
    {cur cur' : List ℕ} (hlen : cur.length = 2 ^ k) (hm : Matching k cur cur' σ fl) (X : ℕ → V) :
    ∑ c ∈ Finset.range (2 ^ k), facetWeight w mm k q c • X (cur'.getD c 0) =
      ∑ c ∈ Finset.range (2 ^ k), facetWeight w mm k p c • X (cur.getD c 0) := by
  symm
  choose! g hg using fun c (hc : c ∈ Finset.range (2 ^ k)) => cubeImage_exists fl hσ (Finset.mem_range.mp hc)
  have hinj : Set.InjOn g (Finset.range (2 ^ k)) := by
    intro a ha b hb hab
    have h1 := hg a ha
    have h2 := hg b hb
    rw [← hab] at h2
    exact cubeImage_inj hσ (Finset.mem_range.mp ha) (Finset.mem_range.mp hb) h1 h2
  have himg : (Finset.range (2 ^ k)).image g = Finset.range (2 ^ k) := by
    apply Finset.eq_of_subset_of_card_le
    · intro x hx
      obtain ⟨c, hc, rfl⟩ := Finset.mem_image.mp hx
      exact Finset.mem_range.mpr (hg c hc).1
    · rw [Finset.card_image_of_injOn hinj]
  conv_rhs => rw [← himg]
  rw [Finset.sum_image hinj]
  apply Finset.sum_congr rfl
  intro c hc
  rw [facetWeight_symm w mm k hw hσ hmm hpq (hg c hc)]
  congr 2
  have := hm c (Finset.mem_range.mp hc) _ (hg c hc)
  have hcl : c < cur.length := by rw [hlen]; exact Finset.mem_range.mp hc
  rw [List.getD_eq_getElem?_getD, List.getD_eq_getElem?_getD, this]

end Verif.Core
