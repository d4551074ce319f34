import Verif.Model.Orderings
import Verif.Spec.CubeSym
import Verif.Lemmas.Cartesian
import Verif.Props.C24
import Mathlib.Data.List.Permutation
import Mathlib.Data.List.Sublists

/-! Helper lemmas for the facet orderings. -/

namespace Verif.Common

open Verif.Spec

/-! ### itertools -/

theorem pickEach_perm {α : Type*} {l : List α} {p : α × List α} (h : p ∈ pickEach l) : l.Perm (p.1 :: p.2) := by
  induction l generalizing p with
  | nil => simp [pickEach] at h
  | cons x xs ih =>
    simp only [pickEach, List.mem_cons, List.mem_map] at h
    rcases h with rfl | ⟨q, hq, rfl⟩
    · exact List.Perm.refl _
    · exact ((ih hq).cons x).trans (List.Perm.swap _ _ _)

theorem pickEach_fst {α : Type*} (l : List α) : (pickEach l).map (·.1) = l := by
  induction l with
  | nil => rfl
  | cons x xs ih =>
    simp only [pickEach, List.map_cons, List.map_map, Function.comp_def]
    rw [ih]

theorem mem_permsOfLength {α : Type*} (k : ℕ) (l : List α) (hl : l.length = k) (s : List α) :
    s ∈ permsOfLength k l ↔ s.Perm l := by
  induction k generalizing l s with
  | zero =>
    have := List.eq_nil_of_length_eq_zero hl
    subst this
    simp [permsOfLength]
  | succ k ih =>
    simp only [permsOfLength, List.mem_flatMap, List.mem_map]
    constructor
    · rintro ⟨p, hp, t, ht, rfl⟩
      have h1 := pickEach_perm hp
      have hlen : p.2.length = k := by have := h1.length_eq; simp at this; omega
      exact (((ih p.2 hlen t).mp ht).cons p.1).trans h1.symm
    · intro h
      cases s with
      | nil => have := h.length_eq; simp at this; omega
      | cons x t =>
        have hx : x ∈ (pickEach l).map (·.1) := by
          rw [pickEach_fst]; exact h.subset List.mem_cons_self
        obtain ⟨p, hp, rfl⟩ := List.mem_map.mp hx
        have h1 := pickEach_perm hp
        have hlen : p.2.length = k := by have := h1.length_eq; simp at this; omega
        exact ⟨p, hp, t, (ih p.2 hlen t).mpr ((List.perm_cons p.1).mp (h.trans h1)), rfl⟩

theorem permsOfLength_nodup {α : Type*} (k : ℕ) (l : List α) (hl : l.length = k) (hn : l.Nodup) :
    (permsOfLength k l).Nodup := by
  induction k generalizing l with
  | zero => simp [permsOfLength]
  | succ k ih =>
    simp only [permsOfLength]
    rw [List.nodup_flatMap]
    constructor
    · intro p hp
      have h1 := pickEach_perm hp
      have hlen : p.2.length = k := by have := h1.length_eq; simp at this; omega
      have hnd : p.2.Nodup := (List.nodup_cons.mp (h1.nodup_iff.mp hn)).2
      exact (ih p.2 hlen hnd).map (fun a b hab => by simpa using hab)
    · have hfst : ((pickEach l).map (·.1)).Nodup := by rw [pickEach_fst]; exact hn
      have hpw : (pickEach l).Pairwise (fun a b => a.1 ≠ b.1) := List.pairwise_map.mp hfst
      refine hpw.imp ?_
      intro a b hab
      simp only [Function.onFun, List.disjoint_left, List.mem_map]
      rintro s ⟨t, _, rfl⟩ ⟨u, _, hu⟩
      simp only [List.cons.injEq] at hu
      exact hab hu.1.symm

theorem mem_permutations' {α : Type*} {l s : List α} : s ∈ permutations l ↔ s.Perm l :=
  mem_permsOfLength l.length l rfl s

theorem permutations_nodup {α : Type*} {l : List α} (hn : l.Nodup) : (permutations l).Nodup :=
  permsOfLength_nodup l.length l rfl hn

theorem permutations_length {α : Type*} {l : List α} (hn : l.Nodup) :
    (permutations l).length = l.length.factorial := by
  rw [← List.length_permutations]
  apply List.Perm.length_eq
  rw [List.perm_ext_iff_of_nodup (permutations_nodup hn) (List.nodup_permutations l hn)]
  intro s
  rw [mem_permutations', List.mem_permutations]

theorem mem_combinations {α : Type*} (k : ℕ) (l s : List α) :
    s ∈ combinations k l ↔ s.Sublist l ∧ s.length = k := by
  induction l generalizing k s with
  | nil =>
    cases k with
    | zero => simp [combinations]
    | succ k =>
      simp only [combinations, List.not_mem_nil, List.sublist_nil, false_iff, not_and]
      rintro rfl; simp
  | cons x xs ih =>
    cases k with
    | zero =>
      simp only [combinations, List.mem_singleton, List.length_eq_zero_iff]
      constructor
      · rintro rfl; exact ⟨List.nil_sublist _, rfl⟩
      · exact fun h => h.2
    | succ k =>
      simp only [combinations, List.mem_append, List.mem_map, ih]
      rw [List.sublist_cons_iff]
      constructor
      · rintro (⟨t, ⟨h1, h2⟩, rfl⟩ | ⟨h1, h2⟩)
        · exact ⟨Or.inr ⟨t, rfl, h1⟩, by simp [h2]⟩
        · exact ⟨Or.inl h1, h2⟩
      · rintro ⟨h1 | ⟨t, rfl, h1⟩, h2⟩
        · exact Or.inr ⟨h1, h2⟩
        · exact Or.inl ⟨t, ⟨h1, by simpa using h2⟩, rfl⟩

theorem combinations_nodup {α : Type*} (k : ℕ) (l : List α) (hn : l.Nodup) : (combinations k l).Nodup := by
  induction l generalizing k with
  | nil => cases k <;> simp [combinations]
  | cons x xs ih =>
    have hx := List.nodup_cons.mp hn
    cases k with
    | zero => simp [combinations]
    | succ k =>
      simp only [combinations]
      rw [List.nodup_append]
      refine ⟨(ih k hx.2).map (fun a b hab => by simpa using hab), ih (k + 1) hx.2, ?_⟩
      intro a ha b hb hab
      subst hab
      obtain ⟨t, _, rfl⟩ := List.mem_map.mp ha
      exact hx.1 (((mem_combinations _ _ _).mp hb).1.subset List.mem_cons_self)

theorem mem_powerset {α : Type*} {l s : List α} : s ∈ powerset l ↔ s.Sublist l := by
  unfold powerset
  rw [List.mem_flatMap]
  constructor
  · rintro ⟨k, _, h⟩; exact ((mem_combinations _ _ _).mp h).1
  · intro h
    exact ⟨s.length, List.mem_range.mpr (by have := h.length_le; omega), (mem_combinations _ _ _).mpr ⟨h, rfl⟩⟩

theorem powerset_nodup {α : Type*} {l : List α} (hn : l.Nodup) : (powerset l).Nodup := by
  unfold powerset
  rw [List.nodup_flatMap]
  refine ⟨fun k _ => combinations_nodup k l hn, ?_⟩
  refine (List.nodup_range (n := l.length + 1)).imp ?_
  intro a b hab
  simp only [Function.onFun, List.disjoint_left]
  intro s hs ht
  exact hab (((mem_combinations _ _ _).mp hs).2.symm.trans ((mem_combinations _ _ _).mp ht).2)

theorem powerset_length {α : Type*} {l : List α} (hn : l.Nodup) : (powerset l).length = 2 ^ l.length := by
  rw [← List.length_sublists]
  apply List.Perm.length_eq
  rw [List.perm_ext_iff_of_nodup (powerset_nodup hn) (List.nodup_sublists.mpr hn)]
  intro s
  rw [mem_powerset, List.mem_sublists]

/-! ### the entries -/

/-- Multi index read at multi index `J` of the flipped transposed array. -/
def orient (m d : ℕ) (perm axes J : List ℕ) : List ℕ :=
  (List.range d).map (fun i =>
    (J.mapIdx (fun k j => if k ∈ axes then m - 1 - j else j)).getD (perm.idxOf i) 0)

theorem flatten_eq (m d : ℕ) (perm axes : List ℕ) (hperm : perm.Perm (List.range d)) :
    (((arangeCube m d).transpose perm).flip axes).flatten =
      (List.range (m ^ d)).map (fun p => ravel m (orient m d perm axes (digits m d p))) := by
  have hshape : perm.map (fun p => (List.replicate d m).getD p 0) = List.replicate d m := by
    rw [List.eq_replicate_iff]
    refine ⟨by have := hperm.length_eq; simpa using this, ?_⟩
    intro b hb
    obtain ⟨p, hp, rfl⟩ := List.mem_map.mp hb
    have := List.mem_range.mp (hperm.subset hp)
    rw [List.getD_eq_getElem?_getD, List.getElem?_replicate, if_pos this]
    rfl
  unfold NdArray.flatten NdArray.flip NdArray.transpose arangeCube
  simp only
  rw [hshape, List.map_replicate, ← map_digits_range, List.map_map]
  apply List.map_congr_left
  intro p _
  simp only [Function.comp]
  congr 1
  unfold orient
  rw [List.length_replicate]
  apply List.map_congr_left
  intro i _
  congr 1
  refine List.ext_getElem? (fun k => ?_)
  rw [List.getElem?_mapIdx, List.getElem?_mapIdx]
  by_cases hk : k < d
  · rw [List.getD_eq_getElem?_getD, List.getElem?_replicate, if_pos hk]
    rfl
  · rw [List.getElem?_eq_none (by rw [digits_length]; omega)]
    rfl

theorem orient_getElem {m d : ℕ} {perm : List ℕ} (axes : List ℕ) (hperm : perm.Perm (List.range d)) {p i : ℕ}
    (hi : i < d) : (orient m d perm axes (digits m d p))[i]? =
      some (if perm.idxOf i ∈ axes then m - 1 - digit m d (perm.idxOf i) p else digit m d (perm.idxOf i) p) := by
  have hlen : perm.length = d := by have := hperm.length_eq; simpa using this
  have hk : perm.idxOf i < d := by
    rw [← hlen]
    exact List.idxOf_lt_length_iff.mpr (hperm.symm.subset (List.mem_range.mpr hi))
  unfold orient
  rw [List.getElem?_map, List.getElem?_range hi, Option.map_some]
  congr 1
  rw [List.getD_eq_getElem?_getD, List.getElem?_mapIdx]
  unfold digits
  rw [List.getElem?_map, List.getElem?_range hk]
  rfl

theorem orient_lt {m d : ℕ} {perm : List ℕ} (axes : List ℕ) (hperm : perm.Perm (List.range d)) {p : ℕ}
    (hm : 0 < m) : ∀ x ∈ orient m d perm axes (digits m d p), x < m := by
  intro x hx
  obtain ⟨i, hi⟩ := List.mem_iff_getElem?.mp hx
  have hid : i < d := by
    have := (List.getElem?_eq_some_iff.mp hi).1
    simpa [orient] using this
  rw [orient_getElem axes hperm hid, Option.some.injEq] at hi
  have := digit_lt m d (perm.idxOf i) p hm
  subst hi
  split <;> omega

theorem orient_length {m d : ℕ} {perm axes J : List ℕ} : (orient m d perm axes J).length = d := by simp [orient]

theorem axisPerm_idxOf {d : ℕ} {perm : List ℕ} (hperm : perm.Perm (List.range d)) : AxisPerm d perm.idxOf := by
  have hlen : perm.length = d := by have := hperm.length_eq; simpa using this
  have hmem : ∀ i, i ∈ perm ↔ i < d := fun i => by rw [hperm.mem_iff, List.mem_range]
  have hnd : perm.Nodup := hperm.nodup_iff.mpr List.nodup_range
  refine ⟨fun i hi => ?_, fun i hi j hj hij => ?_, fun k hk => ?_⟩
  · simp only [Set.mem_ofPred_eq] at hi ⊢
    have := List.idxOf_lt_length_iff.mpr ((hmem i).mpr hi)
    omega
  · simp only [Set.mem_ofPred_eq] at hi hj
    exact (List.idxOf_inj ((hmem i).mpr hi)).mp hij
  · simp only [Set.mem_ofPred_eq] at hk
    have hk' : k < perm.length := by omega
    refine ⟨perm[k], (hmem _).mp (List.getElem_mem hk'), ?_⟩
    exact List.Nodup.idxOf_getElem hnd k hk'

/-- Entry `p` of a flattened flipped transposition is the image of `p`. -/
theorem flatten_image {m d : ℕ} {perm : List ℕ} (axes : List ℕ) (hperm : perm.Perm (List.range d)) {p : ℕ}
    (hp : p < m ^ d) : ∃ q, (((arangeCube m d).transpose perm).flip axes).flatten[p]? = some q ∧
      CubeImage m d perm.idxOf (fun i => perm.idxOf i ∈ axes) p q := by
  have hm : 0 < m ∨ d = 0 := by
    rcases Nat.eq_zero_or_pos m with h | h
    · right
      by_contra hd
      rw [h, zero_pow hd] at hp
      omega
    · exact Or.inl h
  have hlt : ∀ x ∈ orient m d perm axes (digits m d p), x < m := by
    rcases hm with hm | hd
    · exact orient_lt axes hperm hm
    · subst hd; intro x hx; simp [orient] at hx
  have h1 := ravel_lt hlt
  have h2 := digits_ravel hlt
  rw [orient_length] at h1 h2
  refine ⟨ravel m (orient m d perm axes (digits m d p)), ?_, h1, fun i hi => ?_⟩
  · rw [flatten_eq m d perm axes hperm, List.getElem?_map, List.getElem?_range hp]
    rfl
  · have h3 := orient_getElem (m := m) axes hperm (p := p) hi
    rw [← h2] at h3
    unfold digits at h3
    rw [List.getElem?_map, List.getElem?_range hi, Option.map_some, Option.some.injEq] at h3
    unfold digits
    constructor
    · intro hf; rw [h3, if_pos hf]
    · intro hf; rw [h3, if_neg hf]

/-- Images determine points. -/
theorem cubeImage_inj {m d : ℕ} {σ : ℕ → ℕ} {fl : ℕ → Prop} (hσ : AxisPerm d σ) {p p' q : ℕ} (hp : p < m ^ d)
    (hp' : p' < m ^ d) (h : CubeImage m d σ fl p q) (h' : CubeImage m d σ fl p' q) : p = p' := by
  have hm : 0 < m ∨ d = 0 := by
    rcases Nat.eq_zero_or_pos m with h | h
    · right
      by_contra hd
      rw [h, zero_pow hd] at hp
      omega
    · exact Or.inl h
  rcases hm with hm | hd
  · rw [← ravel_digits hp, ← ravel_digits hp']
    congr 1
    unfold digits
    apply List.map_congr_left
    intro k hk
    obtain ⟨i, hi, rfl⟩ := hσ.surjOn (List.mem_range.mp hk)
    have b1 := digit_lt m d (σ i) p hm
    have b2 := digit_lt m d (σ i) p' hm
    by_cases hf : fl i
    · have e1 := (h.2 i hi).1 hf
      have e2 := (h'.2 i hi).1 hf
      omega
    · have e1 := (h.2 i hi).2 hf
      have e2 := (h'.2 i hi).2 hf
      omega
  · subst hd; simp at hp hp'; omega

theorem cubeImage_unique {m d : ℕ} {σ : ℕ → ℕ} {fl : ℕ → Prop} {p q q' : ℕ}
    (h : CubeImage m d σ fl p q) (h' : CubeImage m d σ fl p q') : q = q' := by
  rw [← ravel_digits h.1, ← ravel_digits h'.1]
  congr 1
  unfold digits
  apply List.map_congr_left
  intro i hi
  rw [List.mem_range] at hi
  by_cases hf : fl i
  · rw [(h.2 i hi).1 hf, (h'.2 i hi).1 hf]
  · rw [(h.2 i hi).2 hf, (h'.2 i hi).2 hf]

theorem flatten_perm {m d : ℕ} {perm : List ℕ} (axes : List ℕ) (hperm : perm.Perm (List.range d)) :
    (((arangeCube m d).transpose perm).flip axes).flatten.Perm (List.range (m ^ d)) := by
  have hlen : (((arangeCube m d).transpose perm).flip axes).flatten.length = m ^ d := by
    rw [flatten_eq m d perm axes hperm]; simp
  have hget : ∀ k (hk : k < m ^ d), CubeImage m d perm.idxOf (fun i => perm.idxOf i ∈ axes) k
      ((((arangeCube m d).transpose perm).flip axes).flatten[k]'(by omega)) := by
    intro k hk
    obtain ⟨q, hq, him⟩ := flatten_image axes hperm hk
    rw [List.getElem?_eq_getElem (by omega), Option.some.injEq] at hq
    rw [hq]; exact him
  have hnd : (((arangeCube m d).transpose perm).flip axes).flatten.Nodup := by
    rw [List.nodup_iff_injective_get]
    intro a b hab
    have ha : a.1 < m ^ d := by have := a.2; omega
    have hb : b.1 < m ^ d := by have := b.2; omega
    have h1 := hget a.1 ha
    have h2 := hget b.1 hb
    simp only [List.get_eq_getElem] at hab
    rw [hab] at h1
    exact Fin.ext (cubeImage_inj (axisPerm_idxOf hperm) ha hb h1 h2)
  refine (List.Nodup.subperm hnd (fun x hx => ?_)).perm_of_length_le (by simp [hlen])
  obtain ⟨k, hk, rfl⟩ := List.getElem_of_mem hx
  exact List.mem_range.mpr (hget k (by omega)).1

/-! ### distinct keys -/

/-- The key determines the symmetry. -/
theorem key_inj {d : ℕ} {perm perm' axes axes' : List ℕ} (hperm : perm.Perm (List.range d))
    (hperm' : perm'.Perm (List.range d)) (haxes : axes.Sublist (List.range d))
    (haxes' : axes'.Sublist (List.range d))
    (h : (((arangeCube 2 d).transpose perm).flip axes).flatten =
      (((arangeCube 2 d).transpose perm').flip axes').flatten) : perm = perm' ∧ axes = axes' := by
  have himg : ∀ c < 2 ^ d, ∃ q, CubeImage 2 d perm.idxOf (fun i => perm.idxOf i ∈ axes) c q ∧
      CubeImage 2 d perm'.idxOf (fun i => perm'.idxOf i ∈ axes') c q := by
    intro c hc
    obtain ⟨q, hq, him⟩ := flatten_image axes hperm hc
    obtain ⟨q', hq', him'⟩ := flatten_image axes' hperm' hc
    rw [h, hq', Option.some.injEq] at hq
    subst hq
    exact ⟨_, him, him'⟩
  have hlen : perm.length = d := by have := hperm.length_eq; simpa using this
  have hlen' : perm'.length = d := by have := hperm'.length_eq; simpa using this
  -- the zero corner reveals the flips
  have hflip : ∀ i < d, (perm.idxOf i ∈ axes ↔ perm'.idxOf i ∈ axes') := by
    intro i hi
    obtain ⟨q, h1, h2⟩ := himg 0 (by positivity)
    have e1 := h1.2 i hi
    have e2 := h2.2 i hi
    simp only [digit, Nat.zero_div, Nat.zero_mod] at e1 e2
    by_cases a : perm.idxOf i ∈ axes <;> by_cases b : perm'.idxOf i ∈ axes' <;> simp only [a, b]
    · have x1 := e1.1 a; have x2 := e2.2 b; omega
    · have x1 := e1.2 a; have x2 := e2.1 b; omega
  -- the unit corners reveal the permutation
  have hidx : ∀ i < d, perm.idxOf i = perm'.idxOf i := by
    intro i hi
    have hk := (axisPerm_idxOf hperm).mapsTo (show i ∈ {i | i < d} from hi)
    have hk' := (axisPerm_idxOf hperm').mapsTo (show i ∈ {i | i < d} from hi)
    simp only [Set.mem_ofPred_eq] at hk hk'
    by_contra hne
    -- unit corner in direction `perm.idxOf i`
    let J := (List.range d).map (fun k => if k = perm.idxOf i then 1 else 0)
    have hJlen : J.length = d := by simp [J]
    have hJlt : ∀ x ∈ J, x < 2 := by
      intro x hx
      obtain ⟨k, _, rfl⟩ := List.mem_map.mp hx
      split <;> omega
    have hc := ravel_lt hJlt
    have hdig := digits_ravel hJlt
    rw [hJlen] at hc hdig
    have hd : ∀ k < d, digit 2 d k (ravel 2 J) = if k = perm.idxOf i then 1 else 0 := by
      intro k hk
      have : (digits 2 d (ravel 2 J))[k]? = J[k]? := by rw [hdig]
      unfold digits at this
      rw [List.getElem?_map, List.getElem?_range hk, Option.map_some] at this
      simp only [J, List.getElem?_map, List.getElem?_range hk, Option.map_some, Option.some.injEq] at this
      exact this
    obtain ⟨q, h1, h2⟩ := himg _ hc
    have e1 := h1.2 i hi
    have e2 := h2.2 i hi
    rw [hd _ hk, if_pos rfl] at e1
    rw [hd _ hk', if_neg (fun hc => hne hc.symm)] at e2
    have hf := hflip i hi
    by_cases a : perm.idxOf i ∈ axes
    · have x1 := e1.1 a; have x2 := e2.1 (hf.mp a); omega
    · have x1 := e1.2 a; have x2 := e2.2 (fun hb => a (hf.mpr hb)); omega
  have hpp : perm = perm' := by
    refine List.ext_getElem (by omega) (fun k h1 h2 => ?_)
    have hnd : perm.Nodup := hperm.nodup_iff.mpr List.nodup_range
    have hi : perm[k] < d := List.mem_range.mp (hperm.subset (List.getElem_mem h1))
    have := hidx _ hi
    rw [List.Nodup.idxOf_getElem hnd k h1] at this
    have hm : perm[k] ∈ perm' := hperm'.symm.subset (List.mem_range.mpr hi)
    have hlt := List.idxOf_lt_length_iff.mpr hm
    have := List.getElem_idxOf hlt
    simp only [← ‹k = perm'.idxOf perm[k]›] at this
    exact this.symm
  refine ⟨hpp, ?_⟩
  subst hpp
  have hmemax : ∀ k, k ∈ axes ↔ k ∈ axes' := by
    intro k
    by_cases hk : k < d
    · obtain ⟨i, hi, rfl⟩ := (axisPerm_idxOf hperm).surjOn (show k ∈ {i | i < d} from hk)
      exact hflip i hi
    · constructor
      · intro h; exact absurd (List.mem_range.mp (haxes.subset h)) hk
      · intro h; exact absurd (List.mem_range.mp (haxes'.subset h)) hk
  have hs : (List.range d).Pairwise (· < ·) := List.pairwise_lt_range
  have n1 : axes.Nodup := List.nodup_range.sublist haxes
  have n2 : axes'.Nodup := List.nodup_range.sublist haxes'
  have hperm12 := (List.perm_ext_iff_of_nodup n1 n2).mpr hmemax
  exact List.Perm.eq_of_pairwise (le := (· < ·)) (fun a b _ _ h1 h2 => absurd h1 (by omega))
    (hs.sublist haxes) (hs.sublist haxes') hperm12

theorem orderings_eq_product (d m : ℕ) : orderings d m =
    (permutations (List.range d) ×ˢ powerset (List.range d)).map
      (fun pa => orderingEntry d m pa.1 pa.2) := by
  change _ = List.map _ ((permutations (List.range d)).flatMap _)
  unfold orderings
  rw [List.map_flatMap]
  simp only [List.map_map]
  rfl

theorem orderings_keys_nodup (d m : ℕ) : ((orderings d m).map (·.1)).Nodup := by
  rw [orderings_eq_product, List.map_map]
  refine List.Nodup.map_on ?_ ((permutations_nodup List.nodup_range).product (powerset_nodup List.nodup_range))
  rintro ⟨p, a⟩ h1 ⟨p', a'⟩ h2 heq
  rw [List.mem_product] at h1 h2
  have := key_inj (mem_permutations'.mp h1.1) (mem_permutations'.mp h2.1) (mem_powerset.mp h1.2)
    (mem_powerset.mp h2.2) heq
  rw [this.1, this.2]

theorem orderings_length (d m : ℕ) : (orderings d m).length = d.factorial * 2 ^ d := by
  rw [orderings_eq_product, List.length_map, List.length_product, permutations_length List.nodup_range,
    powerset_length List.nodup_range, List.length_range]

theorem find_of_nodup_keys {α β : Type*} [DecidableEq α] (l : List (α × β)) (h : (l.map (·.1)).Nodup) (k : α)
    (v : β) : (l.find? (fun e => e.1 = k)).map (·.2) = some v ↔ (k, v) ∈ l := by
  induction l with
  | nil => simp
  | cons e l ih =>
    rw [List.map_cons, List.nodup_cons] at h
    by_cases he : e.1 = k
    · rw [List.find?_cons_of_pos (by simpa using he)]
      simp only [Option.map_some, Option.some.injEq, List.mem_cons]
      constructor
      · intro hv; left; rw [← he, ← hv]
      · rintro (h1 | h1)
        · rw [← h1]
        · exfalso
          apply h.1
          rw [he]
          exact List.mem_map.mpr ⟨_, h1, rfl⟩
    · rw [List.find?_cons_of_neg (by simpa using he), ih h.2, List.mem_cons]
      constructor
      · exact Or.inr
      · rintro (h1 | h1)
        · exact absurd (by rw [← h1]) he
        · exact h1

theorem orderingsGet_iff (d m : ℕ) (key v : List ℕ) : orderingsGet d m key = some v ↔ (key, v) ∈ orderings d m := by
  unfold orderingsGet
  rw [find_of_nodup_keys _ (by rw [List.map_reverse]; exact List.nodup_reverse.mpr (orderings_keys_nodup d m)),
    List.mem_reverse]

theorem mem_orderings {d m : ℕ} {e : List ℕ × List ℕ} : e ∈ orderings d m ↔
    ∃ perm axes, perm.Perm (List.range d) ∧ axes.Sublist (List.range d) ∧ e = orderingEntry d m perm axes := by
  unfold orderings
  simp only [List.mem_flatMap, List.mem_map, mem_permutations', mem_powerset]
  constructor
  · rintro ⟨p, hp, a, ha, rfl⟩; exact ⟨p, a, hp, ha, rfl⟩
  · rintro ⟨p, a, hp, ha, rfl⟩; exact ⟨p, hp, a, ha, rfl⟩

end Verif.Common
