import Verif.Lemmas.MultiscalePerm

/-!
# C52: the multiscale element ordering

`C52_perm`: `make_multiscale_perm` lists every element of the `size x size` grid once, when `size` is the base size times
the patch sizes and every factor is the size of the block built before it. `C52_blocks`: at every level the elements are
in runs that fill aligned blocks, so elements pooled together are neighbours. `C52_inverse`: `argsort` inverts the
permutation, and permuting the elements, applying a function elementwise and permuting back is applying the function.
`C52_default`: the default arguments satisfy the hypotheses.
-/

namespace Verif.Niles

/-- The hypotheses on the arguments: `size = base * patch sizes`, `factors[k] = base * patch sizes before k`. -/
structure GoodPatches (size base : ℕ) (patchSizes factors : List ℕ) : Prop where
  base_pos : 0 < base
  pos : ∀ n ∈ patchSizes, 0 < n
  size_eq : size = base * patchSizes.prod
  factors_eq : ∀ k < patchSizes.length, factors[k]? = some (base * (patchSizes.take k).prod)

theorem GoodPatches.div {size base : ℕ} {ps fs : List ℕ} (h : GoodPatches size base ps fs) : size / ps.prod = base := by
  rw [h.size_eq]
  exact Nat.mul_div_cancel _ (List.prod_pos (fun a ha => h.pos a ha))

theorem C52_perm {size base : ℕ} {patchSizes factors : List ℕ} (h : GoodPatches size base patchSizes factors) :
    (makeMultiscalePerm size patchSizes factors).Perm (List.range (size * size)) := by
  have hb := (foldl_shifted patchSizes factors base (lex base) h.base_pos (isBlock_lex base) h.pos h.factors_eq).1
  rw [← h.size_eq] at hb
  have hc : IsBlock size (multiscaleCoords size patchSizes factors) := by
    unfold multiscaleCoords; rw [h.div]; exact hb
  unfold makeMultiscalePerm
  refine (List.perm_ext_iff_of_nodup ?_ List.nodup_range).mpr ?_
  · refine List.Nodup.map_on ?_ hc.1
    intro x hx y hy e
    have bx := (hc.2 x).mp hx
    have yb := (hc.2 y).mp hy
    have hs : 0 < size := by omega
    have e1 := congrArg (· / size) e
    have e2 := congrArg (· % size) e
    simp only [Nat.mul_add_div hs, Nat.div_eq_of_lt bx.2, Nat.div_eq_of_lt yb.2, Nat.mul_add_mod,
      Nat.mod_eq_of_lt bx.2, Nat.mod_eq_of_lt yb.2, Nat.add_zero] at e1 e2
    exact Prod.ext e1 e2
  · intro n
    rw [List.mem_range, List.mem_map]
    constructor
    · rintro ⟨x, hx, rfl⟩
      have bx := (hc.2 x).mp hx
      have : size * (x.1 + 1) ≤ size * size := Nat.mul_le_mul_left _ bx.1
      rw [Nat.mul_add, Nat.mul_one] at this
      omega
    · intro hn
      have hs : 0 < size := Nat.pos_of_ne_zero (by rintro rfl; simp at hn)
      refine ⟨(n / size, n % size), (hc.2 _).mpr ⟨Nat.div_lt_of_lt_mul hn, Nat.mod_lt _ hs⟩, ?_⟩
      exact Nat.div_add_mod n size

/-- With `m` the block size at level `k`: the ordering is a sequence of runs of `m * m` elements; the elements of a run
are the `m * m` elements of one aligned block of the grid. Element `e` is in row `e / size`, column `e % size`. -/
theorem C52_blocks {size base : ℕ} {patchSizes factors : List ℕ} (h : GoodPatches size base patchSizes factors)
    (k : ℕ) (hk : k ≤ patchSizes.length) :
    let m := base * (patchSizes.take k).prod
    ∃ runs : List (List ℕ), makeMultiscalePerm size patchSizes factors = runs.flatten ∧
      ∀ r ∈ runs, r.length = m * m ∧ r.Nodup ∧
        ∃ a b : ℕ, ∀ e ∈ r, (e / size) / m = a ∧ (e % size) / m = b := by
  intro m
  have hf := foldl_shifted patchSizes factors base (lex base) h.base_pos (isBlock_lex base) h.pos h.factors_eq
  have hb := hf.1
  rw [← h.size_eq] at hb
  obtain ⟨runs, e, hr⟩ := hf.2 k hk
  have hcoords : multiscaleCoords size patchSizes factors = runs.flatten := by
    unfold multiscaleCoords; rw [h.div]; exact e
  have hperm := C52_perm h
  have hflat : makeMultiscalePerm size patchSizes factors =
      (runs.map (fun r => r.map (fun x => size * x.1 + x.2))).flatten := by
    unfold makeMultiscalePerm
    rw [hcoords, List.map_flatten]
  refine ⟨runs.map (fun r => r.map (fun x => size * x.1 + x.2)), hflat, ?_⟩
  intro r hmem
  have hnd : r.Nodup := by
    have h1 : (runs.map (fun r => r.map (fun x => size * x.1 + x.2))).flatten.Nodup := by
      rw [← hflat]; exact hperm.nodup_iff.mpr List.nodup_range
    exact (List.nodup_flatten.mp h1).1 r hmem
  obtain ⟨r0, h0, rfl⟩ := List.mem_map.mp hmem
  obtain ⟨hl, q, hq⟩ := hr r0 h0
  refine ⟨by simpa using hl, hnd, q.1, q.2, ?_⟩
  intro n hn
  obtain ⟨x, hx, rfl⟩ := List.mem_map.mp hn
  have hx' : x ∈ runs.flatten := List.mem_flatten.mpr ⟨r0, h0, hx⟩
  rw [← e] at hx'
  have bx := (hb.2 x).mp hx'
  have hs : 0 < size := by omega
  rw [Nat.mul_add_div hs, Nat.div_eq_of_lt bx.2, Nat.mul_add_mod, Nat.mod_eq_of_lt bx.2, Nat.add_zero]
  exact hq x hx

/-- `invperm = np.argsort(perm)` inverts: gathering with `perm`, applying any elementwise function, and gathering with
`invperm` succeeds on every list of `size * size` elements and applies the function in place. -/
theorem C52_inverse {α β : Type*} {size base : ℕ} {patchSizes factors : List ℕ}
    (h : GoodPatches size base patchSizes factors) (x : List α) (hx : x.length = size * size) (f : α → β) :
    ∃ y, takeIdx x (makeMultiscalePerm size patchSizes factors) = some y ∧
      takeIdx (y.map f) (argsort (makeMultiscalePerm size patchSizes factors)) = some (x.map f) := by
  set perm := makeMultiscalePerm size patchSizes factors with hpdef
  have hp := C52_perm h
  rw [← hpdef] at hp
  have hlen : perm.length = size * size := by rw [hp.length_eq, List.length_range]
  have hp' : perm.Perm (List.range perm.length) := by rw [hlen]; exact hp
  obtain ⟨y, h1, h2, h3⟩ := takeIdx_some x perm (fun i hi => by
    rw [hx]; exact List.mem_range.mp (hp.subset hi))
  refine ⟨y, h1, ?_⟩
  obtain ⟨z, z1, z2, z3⟩ := takeIdx_some (y.map f) (argsort perm) (fun i hi => by
    rw [List.length_map, h2]
    exact List.mem_range.mp ((argsort_perm perm).subset hi))
  rw [z1]
  congr 1
  rw [argsort_length] at z2 z3
  apply List.ext_getElem?
  intro k
  by_cases hk : k < perm.length
  · rw [z3 k hk, List.getElem?_map, List.getElem?_map, h3 _ (argsort_lt perm k hk), argsort_right perm hp' k hk]
  · rw [List.getElem?_eq_none (by omega), List.getElem?_eq_none (by rw [List.length_map]; omega)]

/-- The default arguments (train.py 176). -/
theorem C52_default : GoodPatches 12 2 [2, 3] [2, 4] where
  base_pos := by decide
  pos := by decide
  size_eq := by decide
  factors_eq := by decide

/-- The hypothesis on the factors is needed: with factors `(2, 3)` some elements are listed twice. -/
theorem C52_factors_needed : ¬ (makeMultiscalePerm 12 [2, 3] [2, 3]).Perm (List.range 144) := by
  intro h
  have h1 : (makeMultiscalePerm 12 [2, 3] [2, 3]).Nodup := h.nodup_iff.mpr List.nodup_range
  revert h1
  decide +kernel

example : ∃ y, takeIdx (List.range 144) (makeMultiscalePerm 12 [2, 3] [2, 4]) = some y ∧
    takeIdx (y.map (· + 1)) (argsort (makeMultiscalePerm 12 [2, 3] [2, 4])) = some ((List.range 144).map (· + 1)) :=
  C52_inverse C52_default _ (by simp) _

end Verif.Niles
