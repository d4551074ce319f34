import Verif.Lemmas.Orderings

/-! # C26: facet reorderings act the same way on corners and on refined nodes -/

namespace Verif.Common

open Verif.Spec

/-- Every entry comes from one symmetry of the cube that acts on the corners (key) and on the grid points
(value). -/
theorem C26_entry_is_symmetry (d m : ℕ) (key value : List ℕ) (h : orderingsGet d m key = some value) :
    ∃ (σ : ℕ → ℕ) (fl : ℕ → Prop), AxisPerm d σ ∧ key.length = 2 ^ d ∧ value.length = m ^ d ∧
      (∀ c < 2 ^ d, ∃ q, key[c]? = some q ∧ CubeImage 2 d σ fl c q) ∧
      (∀ p < m ^ d, ∃ q, value[p]? = some q ∧ CubeImage m d σ fl p q) := by
  rw [orderingsGet_iff, mem_orderings] at h
  obtain ⟨perm, axes, hperm, _, he⟩ := h
  simp only [orderingEntry, Prod.mk.injEq] at he
  obtain ⟨rfl, rfl⟩ := he
  refine ⟨perm.idxOf, fun i => perm.idxOf i ∈ axes, axisPerm_idxOf hperm, ?_, ?_, ?_, ?_⟩
  · simpa using (flatten_perm (m := 2) axes hperm).length_eq
  · simpa using (flatten_perm (m := m) axes hperm).length_eq
  · intro c hc; exact flatten_image axes hperm hc
  · intro p hp; exact flatten_image axes hperm hp

/-- Keys and values are permutations. -/
theorem C26_entry_is_permutation (d m : ℕ) (key value : List ℕ) (h : orderingsGet d m key = some value) :
    key.Perm (List.range (2 ^ d)) ∧ value.Perm (List.range (m ^ d)) := by
  rw [orderingsGet_iff, mem_orderings] at h
  obtain ⟨perm, axes, hperm, _, he⟩ := h
  simp only [orderingEntry, Prod.mk.injEq] at he
  obtain ⟨rfl, rfl⟩ := he
  exact ⟨flatten_perm axes hperm, flatten_perm axes hperm⟩

/-- Every symmetry of the cube is found under the ordering of corners that it produces. -/
theorem C26_complete (d m : ℕ) (σ : ℕ → ℕ) (fl : ℕ → Prop) (hσ : AxisPerm d σ) (key : List ℕ)
    (hlen : key.length = 2 ^ d) (hkey : ∀ c < 2 ^ d, ∃ q, key[c]? = some q ∧ CubeImage 2 d σ fl c q) :
    ∃ value, orderingsGet d m key = some value ∧
      ∀ p < m ^ d, ∃ q, value[p]? = some q ∧ CubeImage m d σ fl p q := by
  classical
  -- the inverse axis permutation as a list
  let τ := Function.invFunOn σ {i | i < d}
  have hτ : ∀ k < d, τ k < d ∧ σ (τ k) = k := by
    intro k hk
    have hex : ∃ i ∈ {i | i < d}, σ i = k := hσ.surjOn (show k ∈ {i | i < d} from hk)
    exact ⟨Function.invFunOn_mem hex, Function.invFunOn_eq hex⟩
  have hτσ : ∀ i < d, τ (σ i) = i := by
    intro i hi
    have hk : σ i < d := hσ.mapsTo (show i ∈ {i | i < d} from hi)
    exact hσ.injOn (hτ _ hk).1 hi (hτ _ hk).2
  let perm := (List.range d).map τ
  have hnd : perm.Nodup := by
    refine List.Nodup.map_on ?_ List.nodup_range
    intro a ha b hb hab
    rw [List.mem_range] at ha hb
    rw [← (hτ a ha).2, ← (hτ b hb).2, hab]
  have hperm : perm.Perm (List.range d) := by
    refine (List.Nodup.subperm hnd (fun x hx => ?_)).perm_of_length_le (by simp [perm])
    obtain ⟨k, hk, rfl⟩ := List.mem_map.mp hx
    exact List.mem_range.mpr (hτ k (List.mem_range.mp hk)).1
  have hidx : ∀ i < d, perm.idxOf i = σ i := by
    intro i hi
    have hk : σ i < d := hσ.mapsTo (show i ∈ {i | i < d} from hi)
    have hlt : σ i < perm.length := by simpa [perm] using hk
    have := List.Nodup.idxOf_getElem hnd (σ i) hlt
    have hg : perm[σ i] = i := by simp [perm, hτσ i hi]
    rwa [hg] at this
  let axes := (List.range d).filter (fun k => fl (τ k))
  have haxes : ∀ i < d, (perm.idxOf i ∈ axes ↔ fl i) := by
    intro i hi
    rw [hidx i hi]
    have hk : σ i < d := hσ.mapsTo (show i ∈ {i | i < d} from hi)
    simp [axes, hk, hτσ i hi]
  have himg : ∀ (m p q : ℕ), CubeImage m d perm.idxOf (fun i => perm.idxOf i ∈ axes) p q ↔
      CubeImage m d σ fl p q := by
    intro m p q
    unfold CubeImage
    refine and_congr Iff.rfl (forall_congr' fun i => forall_congr' fun hi => ?_)
    have hax := haxes i hi
    rw [hidx i hi] at hax
    simp only [hidx i hi, hax]
  refine ⟨(orderingEntry d m perm axes).2, ?_, ?_⟩
  · rw [orderingsGet_iff, mem_orderings]
    refine ⟨perm, axes, hperm, List.filter_sublist, ?_⟩
    refine Prod.ext ?_ rfl
    have hlen' : (orderingEntry d m perm axes).1.length = 2 ^ d := by
      simpa [orderingEntry] using (flatten_perm (m := 2) axes hperm).length_eq
    refine List.ext_getElem? (fun c => ?_)
    by_cases hc : c < 2 ^ d
    · obtain ⟨q, hq, him⟩ := hkey c hc
      obtain ⟨q', hq', him'⟩ := flatten_image (m := 2) axes hperm hc
      rw [himg] at him'
      change key[c]? = _
      rw [hq]
      change _ = (((arangeCube 2 d).transpose perm).flip axes).flatten[c]?
      rw [hq', cubeImage_unique him him']
    · change key[c]? = _
      rw [List.getElem?_eq_none (by omega), List.getElem?_eq_none (by omega)]
  · intro p hp
    obtain ⟨q, hq, him⟩ := flatten_image (m := m) axes hperm hp
    exact ⟨q, hq, (himg m p q).mp him⟩

/-- There are `d! 2^d` entries, with different keys. -/
theorem C26_count (d m : ℕ) :
    (orderings d m).length = d.factorial * 2 ^ d ∧ ((orderings d m).map (·.1)).Nodup :=
  ⟨orderings_length d m, orderings_keys_nodup d m⟩

/-- The example of the docstring: `[2, 3, 0, 1]` maps to `[6, 7, 8, 3, 4, 5, 0, 1, 2]`. -/
example : orderingsGet 2 3 [2, 3, 0, 1] = some [6, 7, 8, 3, 4, 5, 0, 1, 2] := by decide

/-- A quarter turn, as an axis permutation with one reversed axis. -/
example : AxisPerm 2 (fun i => 1 - i) ∧
    ∀ c < 2 ^ 2, ∃ q, [2, 0, 3, 1][c]? = some q ∧ CubeImage 2 2 (fun i => 1 - i) (fun i => i = 0) c q := by
  constructor
  · refine ⟨fun i hi => ?_, fun i hi j hj h => ?_, fun k hk => ⟨1 - k, ?_, ?_⟩⟩
    all_goals simp only [Set.mem_ofPred_eq] at *
    all_goals omega
  · intro c hc
    interval_cases c <;> refine ⟨_, rfl, by decide, fun i hi => ?_⟩ <;> interval_cases i <;> decide

end Verif.Common
