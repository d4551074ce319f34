import Verif.Props.C22

/-! # C24: the partitions of `unit_cube_mesh` are contiguous blocks -/

namespace Verif.Common

open Verif.Spec

theorem unravel_replicate (n d e : ℕ) (he : e < n ^ d) : unravel (List.replicate d n) e = digits n d e := by
  induction d generalizing e with
  | zero => rfl
  | succ d ih =>
    have hn : 0 < n := by
      rcases Nat.eq_zero_or_pos n with h | h
      · subst h; simp at he
      · exact h
    have hpos : 0 < n ^ d := Nat.pow_pos hn
    rw [List.replicate_succ, unravel, List.prod_replicate, ih _ (Nat.mod_lt _ hpos), digits_succ]
    congr 1
    · rw [Nat.mod_eq_of_lt]
      exact Nat.div_lt_of_lt_mul (by rw [← pow_succ]; exact he)
    · have : e = e / n ^ d * n ^ d + e % n ^ d := by rw [mul_comm]; exact (Nat.div_add_mod _ _).symm
      conv_rhs => rw [this, digits_add n d _ _ hn]

/-- The state of the loop after `m` axes. -/
structure RepeatInv {α : Type*} (n : ℕ) (x0 x : NdArray α) (m : ℕ) : Prop where
  shape : ∀ j, x.shape[j]? = if j < m then x0.shape[j]?.map (fun _ => n) else x0.shape[j]?
  data : ∀ I : List ℕ, I.length = x0.shape.length → x.data I =
    x0.data (I.mapIdx (fun j i => if j < m then i / (n / x0.shape.getD j 0) else i))

theorem repeat_loop {α : Type*} (n : ℕ) (x0 : NdArray α) (m : ℕ) (hm : m ≤ x0.shape.length)
    (hp : ∀ p ∈ x0.shape, 0 < p ∧ p ∣ n) :
    ∃ x, (List.range m).foldlM (repeatStep n) x0 = .ok x ∧ RepeatInv n x0 x m := by
  induction m with
  | zero =>
    refine ⟨x0, rfl, ⟨fun j => by simp, fun I _ => ?_⟩⟩
    congr 1
    refine List.ext_getElem? (fun j => ?_)
    rw [List.getElem?_mapIdx]
    simp
  | succ m ih =>
    obtain ⟨x, hx, inv⟩ := ih (by omega)
    have hmx : x.shape[m]? = some x0.shape[m] := by
      rw [inv.shape m, if_neg (lt_irrefl m), List.getElem?_eq_getElem (by omega)]
    have hpm := hp _ (List.getElem_mem (by omega : m < x0.shape.length))
    have hstep : repeatStep n x m = .ok (x.repeatAxis (n / x0.shape[m]) m) := by
      unfold repeatStep
      rw [hmx]
      simp only
      rw [if_neg (by omega), if_neg (by simpa using Nat.mod_eq_zero_of_dvd hpm.2)]
    refine ⟨x.repeatAxis (n / x0.shape[m]) m, ?_, ⟨fun j => ?_, fun I hI => ?_⟩⟩
    · rw [List.range_succ, List.foldlM_append, hx]
      simp only [List.foldlM_cons, List.foldlM_nil]
      change (repeatStep n x m).bind _ = _
      rw [hstep]
      rfl
    · change (x.shape.modify m (· * (n / x0.shape[m])))[j]? = _
      rw [List.getElem?_modify, inv.shape j]
      by_cases hj : m = j
      · subst hj
        rw [if_neg (lt_irrefl m), if_pos (Nat.lt_succ_self m),
          List.getElem?_eq_getElem (by omega)]
        simp [Nat.mul_div_cancel' hpm.2]
      · have : j < m + 1 ↔ j < m := by omega
        simp only [this, hj, if_false]
        cases (if j < m then x0.shape[j]?.map (fun _ => n) else x0.shape[j]?) <;> rfl
    · change x.data (I.modify m (· / (n / x0.shape[m]))) = _
      rw [inv.data _ (by rw [List.length_modify]; exact hI)]
      congr 1
      refine List.ext_getElem? (fun j => ?_)
      rw [List.getElem?_mapIdx, List.getElem?_mapIdx, List.getElem?_modify]
      by_cases hj : m = j
      · subst hj
        have : x0.shape.getD m 0 = x0.shape[m] := by
          rw [List.getD_eq_getElem?_getD, List.getElem?_eq_getElem (by omega)]; rfl
        rw [this]
        cases I[m]? <;> simp
      · have : j < m + 1 ↔ j < m := by omega
        simp only [this, hj, if_false]
        cases I[j]? <;> simp

theorem mapIdx_eq_zipWith (n : ℕ) (ps I : List ℕ) (hI : I.length = ps.length) (hn : 0 < n ∨ ps = [])
    (hp : ∀ p ∈ ps, 0 < p ∧ p ∣ n) :
    I.mapIdx (fun j i => if j < ps.length then i / (n / ps.getD j 0) else i) =
      List.zipWith (fun i p => i * p / n) I ps := by
  refine List.ext_getElem? (fun j => ?_)
  rw [List.getElem?_mapIdx, List.getElem?_zipWith]
  by_cases hj : j < I.length
  · have hj2 : j < ps.length := by omega
    rw [List.getElem?_eq_getElem hj, List.getElem?_eq_getElem hj2]
    simp only [Option.map_some, if_pos hj2]
    rw [List.getD_eq_getElem?_getD, List.getElem?_eq_getElem hj2, Option.getD_some]
    obtain ⟨h0, q, hq⟩ := hp _ (List.getElem_mem hj2)
    congr 1
    generalize ps[j] = p at h0 hq
    rcases hn with hn | hn
    · subst hq
      rw [Nat.mul_div_cancel_left q h0, mul_comm I[j] p, Nat.mul_div_mul_left _ _ h0]
    · rw [hn] at hj2; simp at hj2
  · rw [List.getElem?_eq_none (by omega)]
    simp

/-- The partition of element `(i_1, ..., i_d)` is the entry of `partitions` at block `floor(i_k p_k / n)`. -/
theorem C24_blocks {α : Type*} (n : ℕ) (partitions : NdArray α)
    (hp : ∀ p ∈ partitions.shape, 0 < p ∧ p ∣ n) :
    ∃ res, cubePartitions n partitions.shape.length partitions = .ok res ∧
      res.length = n ^ partitions.shape.length ∧
      ∀ e < n ^ partitions.shape.length, res[e]? = some (partitions.data
        (List.zipWith (fun i p => i * p / n) (digits n partitions.shape.length e) partitions.shape)) := by
  obtain ⟨x, hx, inv⟩ := repeat_loop n partitions partitions.shape.length le_rfl hp
  have hshape : x.shape = List.replicate partitions.shape.length n := by
    refine List.ext_getElem? (fun j => ?_)
    rw [inv.shape j, List.getElem?_replicate]
    by_cases hj : j < partitions.shape.length
    · rw [if_pos hj, if_pos hj, List.getElem?_eq_getElem hj]; rfl
    · rw [if_neg hj, if_neg hj, List.getElem?_eq_none (by omega)]
  have hlen : (facetElements n (List.replicate partitions.shape.length .inner)).length =
      n ^ partitions.shape.length := (C22_elements (K := ℚ) n partitions.shape.length 0 1 []).1
  refine ⟨(List.range (n ^ partitions.shape.length)).map (fun e => x.data (unravel x.shape e)), ?_, by simp, ?_⟩
  · unfold cubePartitions
    rw [hx]
    simp only
    have : x.shape.prod = n ^ partitions.shape.length := by rw [hshape, List.prod_replicate]
    rw [this, hlen, if_neg (by simp)]
  · intro e he
    rw [List.getElem?_map, List.getElem?_range he, Option.map_some]
    congr 1
    have hn : 0 < n ∨ partitions.shape = [] := by
      rcases Nat.eq_zero_or_pos n with h | h
      · right
        apply List.eq_nil_of_length_eq_zero
        by_contra hd
        rw [h, zero_pow hd] at he
        omega
      · exact Or.inl h
    rw [hshape, unravel_replicate n _ e he, inv.data _ (digits_length _ _ _)]
    congr 1
    exact mapIdx_eq_zipWith n partitions.shape _ (digits_length _ _ _) hn hp

theorem map_digits_range (n d : ℕ) : (List.range (n ^ d)).map (digits n d) =
    cartesian (List.replicate d (List.range n)) := by
  have h := fun (e : ℕ) (he : e < n ^ d) => getElem?_cartesian_replicate n d (fun i : ℕ => i) he
  simp only [List.map_id'] at h
  have hlen : (cartesian (List.replicate d (List.range n))).length = n ^ d := by simp [cartesian_length]
  refine List.ext_getElem? (fun e => ?_)
  by_cases he : e < n ^ d
  · rw [h e he, List.getElem?_map, List.getElem?_range he]; rfl
  · rw [List.getElem?_eq_none (by simp; omega), List.getElem?_eq_none (by omega)]

theorem count_axis (n p j : ℕ) (hn : 0 < n) (hp : p ∣ n) (hj : j < p) :
    (List.range n).countP (fun i => i * p / n = j) = n / p := by
  obtain ⟨q, rfl⟩ := hp
  have hp0 : 0 < p := by omega
  have hq0 : 0 < q := Nat.pos_of_mul_pos_left hn
  rw [Nat.mul_div_cancel_left q hp0]
  have h1 : ∀ i, i * p / (p * q) = i / q := by
    intro i; rw [mul_comm i p, Nat.mul_div_mul_left _ _ hp0]
  simp only [h1]
  have h2 : ∀ p', (List.range (p' * q)).countP (fun i => decide (i / q = j)) = if j < p' then q else 0 := by
    intro p'
    induction p' with
    | zero => simp
    | succ p' ih =>
      rw [Nat.add_mul, one_mul, List.range_add, List.countP_append, ih, List.countP_map]
      by_cases hjp : j = p'
      · subst hjp
        rw [if_neg (lt_irrefl j), if_pos (Nat.lt_succ_self j), zero_add]
        have : (List.range q).countP ((fun i => decide (i / q = j)) ∘ fun x => j * q + x) = (List.range q).length := by
          rw [List.countP_eq_length]
          intro a ha
          rw [List.mem_range] at ha
          simp only [Function.comp, decide_eq_true_eq]
          rw [mul_comm, Nat.mul_add_div hq0, Nat.div_eq_of_lt ha, add_zero]
        rw [this, List.length_range]
      · have : (List.range q).countP ((fun i => decide (i / q = j)) ∘ fun x => p' * q + x) = 0 := by
          rw [List.countP_eq_zero]
          intro a ha
          rw [List.mem_range] at ha
          simp only [Function.comp, decide_eq_true_eq]
          rw [mul_comm, Nat.mul_add_div hq0, Nat.div_eq_of_lt ha, add_zero]
          exact fun hc => hjp hc.symm
        rw [this, add_zero]
        have : j < p' + 1 ↔ j < p' := by omega
        simp only [this]
  rw [h2 p, if_pos hj]

/-- Every block holds the same number `∏ n / p_k` of elements. -/
theorem C24_equal_blocks (n : ℕ) (hn : 0 < n) (ps J : List ℕ) (hp : ∀ p ∈ ps, p ∣ n)
    (hJ : List.Forall₂ (· < ·) J ps) :
    (List.range (n ^ ps.length)).countP (fun e =>
      List.zipWith (fun i p => i * p / n) (digits n ps.length e) ps = J) = (ps.map (n / ·)).prod := by
  have h1 : (List.range (n ^ ps.length)).countP (fun e =>
      List.zipWith (fun i p => i * p / n) (digits n ps.length e) ps = J) =
      ((List.range (n ^ ps.length)).map (digits n ps.length)).countP (fun I =>
        List.zipWith (fun i p => i * p / n) I ps = J) := by
    rw [List.countP_map]; rfl
  rw [h1, map_digits_range]
  clear h1
  induction hJ with
  | nil => simp [cartesian]
  | @cons j p J ps hj hJ ih =>
    have hrest := ih (fun q hq => hp q (List.mem_cons_of_mem _ hq))
    rw [List.length_cons, List.replicate_succ, cartesian, List.countP_flatMap, List.map_cons, List.prod_cons,
      ← hrest, ← count_axis n p j hn (hp p List.mem_cons_self) hj]
    generalize cartesian (List.replicate ps.length (List.range n)) = C
    generalize List.range n = r
    induction r with
    | nil => simp
    | cons a r ihr =>
      rw [List.map_cons, List.sum_cons, ihr, List.countP_cons]
      simp only [Function.comp_def, List.countP_map, List.zipWith_cons_cons, List.cons.injEq]
      by_cases ha : a * p / n = j
      · simp [ha]; ring
      · simp [ha]

/-- A count that does not divide `n`, or a zero count, makes the call fail. -/
theorem C24_fails {α : Type*} (n : ℕ) (partitions : NdArray α)
    (hp : ∃ p ∈ partitions.shape, p = 0 ∨ ¬ p ∣ n) :
    ∃ err, cubePartitions n partitions.shape.length partitions = .error err := by
  suffices h : ∀ m ≤ partitions.shape.length,
      ((∃ err, (List.range m).foldlM (repeatStep n) partitions = .error err) ∨
      (∃ x, (List.range m).foldlM (repeatStep n) partitions = .ok x ∧
        (∀ j, m ≤ j → x.shape[j]? = partitions.shape[j]?) ∧
        ∀ j < m, ∀ p, partitions.shape[j]? = some p → p ≠ 0 ∧ p ∣ n)) by
    obtain ⟨p, hpm, hbad⟩ := hp
    obtain ⟨j, hj⟩ := List.mem_iff_getElem?.mp hpm
    rcases h _ le_rfl with ⟨err, he⟩ | ⟨x, _, _, hx⟩
    · refine ⟨err, ?_⟩
      unfold cubePartitions
      rw [he]
    · exfalso
      have := hx j (List.getElem?_eq_some_iff.mp hj).1 p hj
      rcases hbad with h | h
      · exact this.1 h
      · exact h this.2
  intro m hm
  induction m with
  | zero => exact Or.inr ⟨partitions, rfl, fun _ _ => rfl, fun j hj => by omega⟩
  | succ m ih =>
    rw [List.range_succ, List.foldlM_append]
    rcases ih (by omega) with ⟨err, he⟩ | ⟨x, hx, hs, hall⟩
    · left
      exact ⟨err, by rw [he]; rfl⟩
    · have hxm : x.shape[m]? = some partitions.shape[m] := by
        rw [hs m le_rfl, List.getElem?_eq_getElem (by omega)]
      have hfold : (((List.range m).foldlM (repeatStep n) partitions).bind fun s' =>
          [m].foldlM (repeatStep n) s') = repeatStep n x m := by
        rw [hx]
        simp only [List.foldlM_cons, List.foldlM_nil]
        change (repeatStep n x m).bind _ = _
        cases repeatStep n x m <;> rfl
      change (∃ err, (((List.range m).foldlM (repeatStep n) partitions).bind fun s' =>
          [m].foldlM (repeatStep n) s') = .error err) ∨ (∃ y, (((List.range m).foldlM (repeatStep n)
          partitions).bind fun s' => [m].foldlM (repeatStep n) s') = .ok y ∧ _)
      rw [hfold]
      unfold repeatStep
      rw [hxm]
      simp only
      split
      · exact Or.inl ⟨_, rfl⟩
      · split
        · exact Or.inl ⟨_, rfl⟩
        · rename_i h0 hmod
          right
          refine ⟨_, rfl, fun j hj => ?_, fun j hj p hjp => ?_⟩
          · change (x.shape.modify m _)[j]? = _
            rw [List.getElem?_modify, hs j (by omega)]
            have : ¬ m = j := by omega
            simp [this]
          · by_cases hjm : j = m
            · subst hjm
              rw [List.getElem?_eq_getElem (by omega), Option.some.injEq] at hjp
              subst hjp
              exact ⟨h0, Nat.dvd_of_mod_eq_zero (by simpa using hmod)⟩
            · exact hall j (by omega) p hjp

/-- `[[0, 1], [2, 3]]` on a `4 × 4` grid. -/
example : cubePartitions 4 2 (NdArray.mk [2, 2] (fun I => I.getD 0 0 * 2 + I.getD 1 0)) =
    .ok [0, 0, 1, 1, 0, 0, 1, 1, 2, 2, 3, 3, 2, 2, 3, 3] := by decide

example : ∀ p ∈ (NdArray.mk [2, 1] (fun I => I.getD 0 0 * 2 + I.getD 1 0)).shape, 0 < p ∧ p ∣ 4 := by decide

example : List.Forall₂ (· < ·) [1, 0] [2, 1] := by decide

end Verif.Common
