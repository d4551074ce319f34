import Verif.Lemmas.GatherScatter

/-! Helper lemmas for `exchange`. -/

namespace Verif.Core

open Verif.Spec

variable {R : Type*} [CommRing R]

theorem count_map_range (N : ℕ) (node : ℕ → ℤ) (x : ℤ) :
    ((List.range N).map node).count x = ((Finset.range N).filter (fun j => node j = x)).card := by
  rw [Finset.card_filter]
  induction N with
  | zero => simp
  | succ n ih =>
    rw [List.range_succ, List.map_append, List.count_append, ih, Finset.sum_range_succ]
    congr 1
    by_cases h : node n = x
    · simp [h]
    · simp [h]

theorem count_flattenNodes (P N : ℕ) (node : ℕ → ℕ → ℤ) (x : ℤ) :
    (flattenNodes P N node).count x =
      ((Finset.range P ×ˢ Finset.range N).filter (fun q => node q.1 q.2 = x)).card := by
  rw [Finset.card_filter, Finset.sum_product]
  unfold flattenNodes
  induction P with
  | zero => simp
  | succ n ih =>
    rw [List.range_succ, List.flatMap_append, List.count_append, ih, Finset.sum_range_succ]
    congr 1
    rw [List.flatMap_singleton, count_map_range, Finset.card_filter]

theorem idxOf_inj_of_mem {l : List ℤ} {x y : ℤ} (hx : x ∈ l) (h : l.idxOf y = l.idxOf x) : y = x := by
  have hlt : l.idxOf x < l.length := List.idxOf_lt_length_iff.mpr hx
  have hlty : l.idxOf y < l.length := h ▸ hlt
  have h1 := List.getElem_idxOf hlt
  have h2 := List.getElem_idxOf hlty
  rw [← h1, ← h2]
  simp [h]

theorem exchange_apply (N : ℕ) (node : ℕ → ℤ) (u : ℕ → R) {j : ℕ} (hj : j < N) :
    exchange N u (exchangeIndices N node).1 (exchangeIndices N node).2 j =
      if node j ∈ indicesToExchange ((List.range N).map node) then copiesSum N node u j else u j := by
  have hgi : (exchangeIndices N node).1 = ((List.range N).filter
      (fun p => node p ∈ indicesToExchange ((List.range N).map node))).map (fun p : ℕ => (p : ℤ)) := rfl
  have hui : (exchangeIndices N node).2 = ((List.range N).filter
      (fun p => node p ∈ indicesToExchange ((List.range N).map node))).map
      (fun p => (indicesToExchange ((List.range N).map node)).idxOf (node p)) := rfl
  rw [hgi, hui]
  generalize hex : indicesToExchange ((List.range N).map node) = ex
  generalize hpos : (List.range N).filter (fun p => node p ∈ ex) = pos
  have hmem : ∀ p, p ∈ pos ↔ p < N ∧ node p ∈ ex := by
    intro p; rw [← hpos]; simp
  have hnd : pos.Nodup := by rw [← hpos]; exact List.nodup_range.filter _
  unfold exchange
  by_cases hempty : pos = []
  · subst hempty
    have hn : node j ∉ ex := fun h => by simpa using (hmem j).mpr ⟨hj, h⟩
    simp [hn]
  · have hne : (pos.map (fun p : ℕ => (p : ℤ))).isEmpty = false := by
      cases pos with
      | nil => exact absurd rfl hempty
      | cons a b => rfl
    rw [hne]
    simp only [Bool.false_eq_true, if_false]
    have hinit : (pos.map (fun p : ℕ => (p : ℤ))).map (fun i => maskOf i * u (readPos N i)) = pos.map u := by
      rw [List.map_map]
      apply List.map_congr_left
      intro p hp
      simp only [Function.comp]
      rw [maskOf_natCast, readPos_natCast ((hmem p).mp hp).1, one_mul]
    rw [hinit]
    simp only [List.zip_map', List.map_map]
    unfold atAdd
    simp only [List.map_map, Function.comp_def]
    have hupd : ∀ q, (pos.map (fun x => if ex.idxOf (node x) = ex.idxOf (node q) then u x else 0)).sum =
        ∑ k ∈ Finset.range N, if node k ∈ ex then
          (if ex.idxOf (node k) = ex.idxOf (node q) then u k else 0) else 0 := by
      intro q
      rw [← hpos, sum_map_filter_range]
      simp
    simp only [hupd]
    have hcongr : ∀ p ∈ pos, (if writePos N (p : ℤ) = some j then
        (maskOf (p : ℤ) : R) * ((∑ k ∈ Finset.range N, if node k ∈ ex then
          (if ex.idxOf (node k) = ex.idxOf (node p) then u k else 0) else 0) - u p) else 0) =
        if p = j then ((∑ k ∈ Finset.range N, if node k ∈ ex then
          (if ex.idxOf (node k) = ex.idxOf (node p) then u k else 0) else 0) - u p) else 0 := by
      intro p hp
      rw [writePos_natCast ((hmem p).mp hp).1, maskOf_natCast, one_mul]
      simp
    rw [List.map_congr_left hcongr, sum_map_ite_nodup _ hnd]
    by_cases hjx : node j ∈ ex
    · rw [if_pos ((hmem j).mpr ⟨hj, hjx⟩), if_pos hjx]
      rw [add_sub_cancel]
      unfold copiesSum
      rw [Finset.sum_filter]
      apply Finset.sum_congr rfl
      intro k _
      by_cases hk : node k = node j
      · simp [hk, hjx]
      · rw [if_neg hk]
        by_cases hkx : node k ∈ ex
        · rw [if_pos hkx, if_neg (fun h => hk (idxOf_inj_of_mem hjx h))]
        · rw [if_neg hkx]
    · rw [if_neg (fun h => hjx ((hmem j).mp h).2), if_neg hjx, add_zero]

/-- A node that is not exchanged is held once. -/
theorem copiesSum_of_not_mem {N : ℕ} {node : ℕ → ℤ} (u : ℕ → R) {j : ℕ} (hj : j < N)
    (hs : node j ≠ -1) (h : node j ∉ indicesToExchange ((List.range N).map node)) :
    copiesSum N node u j = u j := by
  rw [mem_indicesToExchange, count_map_range] at h
  unfold copiesSum
  have hjm : j ∈ (Finset.range N).filter (fun k => node k = node j) := by simp [hj]
  have hcard : ((Finset.range N).filter (fun k => node k = node j)).card ≤ 1 := by
    by_contra hc
    exact h ⟨hs, by omega⟩
  have := Finset.card_le_one.mp hcard
  rw [Finset.sum_eq_single j]
  · intro b hb hbj
    exact absurd (this b hb j hjm) hbj
  · intro hn; exact absurd hjm hn

/-! ### Partitioned -/

theorem partStep_skip {ex : List ℤ} {node : ℕ → ℤ} (st : PartLoop) {m : ℕ}
    (hc : node m = -1 ∨ node m ∉ ex) : partStep ex node st m = .ok st := if_pos hc

theorem partStep_err {ex : List ℤ} {node : ℕ → ℤ} {st : PartLoop} {m : ℕ}
    (hc : ¬(node m = -1 ∨ node m ∉ ex)) (hs : node m ∈ st.seen) :
    partStep ex node st m = .error "NotImplementedError" := (if_neg hc).trans (if_pos hs)

theorem partStep_add {ex : List ℤ} {node : ℕ → ℤ} {st : PartLoop} {m : ℕ}
    (hc : ¬(node m = -1 ∨ node m ∉ ex)) (hs : node m ∉ st.seen) :
    partStep ex node st m = .ok { gather := Function.update st.gather (ex.idxOf (node m)) (m : ℤ)
                                  seen := node m :: st.seen } := (if_neg hc).trans (if_neg hs)

/-- The row of `gather_indices` after the first `m` positions. -/
theorem partRow_prefix (ex : List ℤ) (node : ℕ → ℤ) (m : ℕ)
    (hnr : ∀ i < m, ∀ j < m, node i = node j → node i ≠ -1 → i = j) :
    ∃ st, (List.range m).foldlM (partStep ex node) { gather := fun _ => sentinel, seen := [] } = .ok st ∧
      (∀ x, x ∈ st.seen ↔ ∃ i < m, node i = x ∧ x ≠ -1 ∧ x ∈ ex) ∧
      (∀ i < m, node i ≠ -1 → node i ∈ ex → st.gather (ex.idxOf (node i)) = (i : ℤ)) ∧
      (∀ k, st.gather k = -1 ∨ ∃ i < m, node i ≠ -1 ∧ node i ∈ ex ∧ k = ex.idxOf (node i)) := by
  induction m with
  | zero => exact ⟨_, rfl, by simp, by simp, by simp [sentinel]⟩
  | succ m ih =>
    obtain ⟨st, hst, hseen, hg, hk⟩ := ih (fun i hi j hj => hnr i (by omega) j (by omega))
    rw [List.range_succ, List.foldlM_append, hst]
    by_cases hc : node m = -1 ∨ node m ∉ ex
    · refine ⟨st, ?_, ?_, ?_, ?_⟩
      · simp only [bind, Except.bind, List.foldlM_cons, List.foldlM_nil, pure, Except.pure,
          partStep_skip st hc]
      · intro x
        rw [hseen]
        constructor
        · rintro ⟨i, hi, h⟩; exact ⟨i, by omega, h⟩
        · rintro ⟨i, hi, h1, h2, h3⟩
          refine ⟨i, ?_, h1, h2, h3⟩
          rcases Nat.lt_succ_iff_lt_or_eq.mp hi with h | rfl
          · exact h
          · subst h1; rcases hc with hc | hc
            · exact absurd hc h2
            · exact absurd h3 hc
      · intro i hi h2 h3
        rcases Nat.lt_succ_iff_lt_or_eq.mp hi with h | rfl
        · exact hg i h h2 h3
        · rcases hc with hc | hc
          · exact absurd hc h2
          · exact absurd h3 hc
      · intro k
        rcases hk k with h | ⟨i, hi, h⟩
        · exact Or.inl h
        · exact Or.inr ⟨i, by omega, h⟩
    · have hc' := hc
      push Not at hc'
      have hns : node m ∉ st.seen := by
        rw [hseen]
        rintro ⟨i, hi, h1, h2, _⟩
        have := hnr i (by omega) m (by omega) h1 (h1 ▸ h2)
        omega
      refine ⟨{ gather := Function.update st.gather (ex.idxOf (node m)) (m : ℤ)
                seen := node m :: st.seen }, ?_, ?_, ?_, ?_⟩
      · simp only [bind, Except.bind, List.foldlM_cons, List.foldlM_nil, pure, Except.pure,
          partStep_add hc hns]
      · intro x
        simp only [List.mem_cons, hseen]
        constructor
        · rintro (rfl | ⟨i, hi, h⟩)
          · exact ⟨m, by omega, rfl, hc'.1, hc'.2⟩
          · exact ⟨i, by omega, h⟩
        · rintro ⟨i, hi, h⟩
          rcases Nat.lt_succ_iff_lt_or_eq.mp hi with h' | rfl
          · exact Or.inr ⟨i, h', h⟩
          · exact Or.inl h.1.symm
      · intro i hi h2 h3
        simp only [Function.update_apply]
        rcases Nat.lt_succ_iff_lt_or_eq.mp hi with h' | rfl
        · rw [if_neg, hg i h' h2 h3]
          intro he
          have := hnr i (by omega) m (by omega) (idxOf_inj_of_mem hc'.2 he) h2
          omega
        · simp
      · intro k
        simp only [Function.update_apply]
        by_cases hkm : k = ex.idxOf (node m)
        · exact Or.inr ⟨m, by omega, hc'.1, hc'.2, hkm⟩
        · rw [if_neg hkm]
          rcases hk k with h | ⟨i, hi, h⟩
          · exact Or.inl h
          · exact Or.inr ⟨i, by omega, h⟩

/-- The exchanged nodes that occur twice in a row make the loop fail. -/
theorem partRow_error (ex : List ℤ) (node : ℕ → ℤ) (N : ℕ) {i j : ℕ} (hij : i < j) (hj : j < N)
    (he : node i = node j) (hs : node i ≠ -1) (hex : node i ∈ ex) :
    partRow N ex node = .error "NotImplementedError" := by
  -- every run either fails with the error or its `seen` list contains all earlier exchanged nodes
  have key : ∀ m, (List.range m).foldlM (partStep ex node)
        { gather := fun _ => sentinel, seen := [] } = .error "NotImplementedError" ∨
      (j < m → False) ∧ ∃ st, (List.range m).foldlM (partStep ex node)
        { gather := fun _ => sentinel, seen := [] } = .ok st ∧ (i < m → node i ∈ st.seen) := by
    intro m
    induction m with
    | zero => exact Or.inr ⟨by omega, _, rfl, by omega⟩
    | succ m ih =>
      rw [List.range_succ, List.foldlM_append]
      rcases ih with h | ⟨hjm, st, hst, hseen⟩
      · left; rw [h]; rfl
      · rw [hst]
        have hjm : ¬ j < m := hjm
        simp only [bind, Except.bind, List.foldlM_cons, List.foldlM_nil, pure, Except.pure]
        by_cases hc : node m = -1 ∨ node m ∉ ex
        · right
          rw [partStep_skip st hc]
          have hmi : m ≠ i := by
            rintro rfl; rcases hc with hc | hc
            · exact hs hc
            · exact hc hex
          have hmj : m ≠ j := by
            rintro rfl; rcases hc with hc | hc
            · exact hs (he.trans hc)
            · exact hc (he ▸ hex)
          exact ⟨by omega, st, rfl, fun h => hseen (by omega)⟩
        · by_cases hsn : node m ∈ st.seen
          · left; rw [partStep_err hc hsn]
          · right
            rw [partStep_add hc hsn]
            have hmj : m ≠ j := by
              rintro rfl
              exact hsn (he ▸ hseen hij)
            refine ⟨by omega, _, rfl, fun h => ?_⟩
            rcases Nat.lt_succ_iff_lt_or_eq.mp h with h' | rfl
            · exact List.mem_cons_of_mem _ (hseen h')
            · exact List.mem_cons_self
  rcases key N with h | ⟨h, _⟩
  · exact h
  · exact absurd hj h

/-- `mapM` over a range in `Except`. -/
theorem mapM_range_ok {α : Type*} (P : ℕ) (f : ℕ → Except String α) (g : ℕ → α)
    (h : ∀ p < P, f p = .ok (g p)) : (List.range P).mapM f = .ok ((List.range P).map g) := by
  induction P with
  | zero => rfl
  | succ n ih =>
    rw [List.range_succ, List.mapM_append, ih (fun p hp => h p (by omega))]
    simp [h n (by omega), bind, Except.bind, pure, Except.pure]

theorem mapM_range_error {α : Type*} (P : ℕ) (f : ℕ → Except String α) (e : String)
    (hall : ∀ p < P, f p = .error e ∨ ∃ a, f p = .ok a) {p : ℕ} (hp : p < P) (h : f p = .error e) :
    (List.range P).mapM f = .error e := by
  have key : ∀ m ≤ P, (List.range m).mapM f = .error e ∨
      ((p < m → False) ∧ ∃ a, (List.range m).mapM f = .ok a) := by
    intro m
    induction m with
    | zero => exact fun _ => Or.inr ⟨by omega, _, rfl⟩
    | succ m ih =>
      intro hm
      rw [List.range_succ, List.mapM_append]
      rcases ih (by omega) with h' | ⟨hpm, a, h'⟩
      · left; rw [h']; rfl
      · rw [h']
        rcases hall m (by omega) with h2 | ⟨b, h2⟩
        · left; simp [h2, bind, Except.bind]
        · right
          refine ⟨fun hlt => ?_, ?_⟩
          · rcases Nat.lt_succ_iff_lt_or_eq.mp hlt with h3 | rfl
            · exact hpm h3
            · rw [h2] at h; exact absurd h (by simp)
          · simp [h2, bind, Except.bind, pure, Except.pure]
  rcases key P (le_refl _) with h' | ⟨h', _⟩
  · exact h'
  · exact absurd hp h'

theorem partRow_cases (ex : List ℤ) (node : ℕ → ℤ) (N : ℕ) :
    partRow N ex node = .error "NotImplementedError" ∨ ∃ st, partRow N ex node = .ok st := by
  unfold partRow
  generalize ({ gather := fun _ => sentinel, seen := [] } : PartLoop) = s0
  induction List.range N generalizing s0 with
  | nil => exact Or.inr ⟨_, rfl⟩
  | cons a l ih =>
    rw [List.foldlM_cons]
    simp only [partStep]
    by_cases h1 : node a = sentinel ∨ node a ∉ ex
    · rw [if_pos h1]; exact ih _
    · rw [if_neg h1]
      by_cases h2 : node a ∈ s0.seen
      · rw [if_pos h2]; exact Or.inl rfl
      · rw [if_neg h2]; exact ih _

/-- Properties of the rows when no device repeats a node. -/
theorem exchangeIndicesPart_ok {P N : ℕ} {node : ℕ → ℕ → ℤ} (h : NoRepeats P N node) :
    ∃ g : ℕ → ℕ → ℤ, exchangeIndicesPart P N node = .ok ((List.range P).map g) ∧
      ∀ p < P, (∀ i < N, node p i ∈ indicesToExchange (flattenNodes P N node) →
          g p ((indicesToExchange (flattenNodes P N node)).idxOf (node p i)) = (i : ℤ)) ∧
        (∀ k, g p k = -1 ∨ ∃ i < N, node p i ∈ indicesToExchange (flattenNodes P N node) ∧
          k = (indicesToExchange (flattenNodes P N node)).idxOf (node p i)) := by
  have hrow : ∀ p, ∃ g : ℕ → ℤ, p < P →
      (do let st ← partRow N (indicesToExchange (flattenNodes P N node)) (node p)
          (Except.ok st.gather : Except String (ℕ → ℤ))) = .ok g ∧
      (∀ i < N, node p i ∈ indicesToExchange (flattenNodes P N node) →
          g ((indicesToExchange (flattenNodes P N node)).idxOf (node p i)) = (i : ℤ)) ∧
      (∀ k, g k = -1 ∨ ∃ i < N, node p i ∈ indicesToExchange (flattenNodes P N node) ∧
          k = (indicesToExchange (flattenNodes P N node)).idxOf (node p i)) := by
    intro p
    by_cases hp : p < P
    · obtain ⟨st, hst, _, hg, hk⟩ := partRow_prefix (indicesToExchange (flattenNodes P N node))
        (node p) N (fun i hi j hj he hs => h p hp i hi j hj he hs)
      refine ⟨st.gather, fun _ => ⟨?_, ?_, ?_⟩⟩
      · unfold partRow; rw [hst]; rfl
      · intro i hi hx
        exact hg i hi (mem_indicesToExchange.mp hx).1 hx
      · intro k
        rcases hk k with h | ⟨i, hi, _, h2, h3⟩
        · exact Or.inl h
        · exact Or.inr ⟨i, hi, h2, h3⟩
    · exact ⟨fun _ => 0, fun h => absurd h hp⟩
  choose g hg using hrow
  refine ⟨g, ?_, fun p hp => (hg p hp).2⟩
  unfold exchangeIndicesPart
  exact mapM_range_ok P _ g (fun p hp => (hg p hp).1)

theorem exchangePart_apply {P N : ℕ} {node : ℕ → ℕ → ℤ} (h : NoRepeats P N node) (u : ℕ → ℕ → R)
    {ex : List ℤ} (hex : ex = indicesToExchange (flattenNodes P N node)) {g : ℕ → ℕ → ℤ}
    (hg : ∀ p < P, (∀ i < N, node p i ∈ ex → g p (ex.idxOf (node p i)) = (i : ℤ)) ∧
        (∀ k, g p k = -1 ∨ ∃ i < N, node p i ∈ ex ∧ k = ex.idxOf (node p i)))
    {p j : ℕ} (hp : p < P) (hj : j < N) :
    exchangePart P N ex.length g u p j =
      if node p j ∈ ex then holdersSum P N node u (node p j) else u p j := by
  unfold exchangePart
  by_cases hK : ex.length = 0
  · rw [if_pos hK, if_neg]
    rw [List.length_eq_zero_iff.mp hK]; simp
  rw [if_neg hK]
  -- contribution of a device to dof `x`
  have hinit : ∀ q < P, ∀ x ∈ ex, (maskOf (g q (ex.idxOf x)) * u q (readPos N (g q (ex.idxOf x))) : R) =
      ∑ i ∈ Finset.range N, if node q i = x then u q i else 0 := by
    intro q hq x hx
    by_cases hex2 : ∃ i < N, node q i = x
    · obtain ⟨i, hi, rfl⟩ := hex2
      rw [(hg q hq).1 i hi hx, maskOf_natCast, readPos_natCast hi, one_mul, Finset.sum_eq_single i]
      · simp
      · intro b hb hbi
        rw [if_neg]
        intro he
        have hs : node q i ≠ -1 := by rw [hex] at hx; exact (mem_indicesToExchange.mp hx).1
        exact hbi (h q hq b (Finset.mem_range.mp hb) i hi he (he ▸ hs))
      · intro hn; exact absurd (Finset.mem_range.mpr hi) hn
    · have hneg : g q (ex.idxOf x) = -1 := by
        rcases (hg q hq).2 (ex.idxOf x) with h' | ⟨i, hi, h2, h3⟩
        · exact h'
        · exact absurd ⟨i, hi, (idxOf_inj_of_mem h2 h3).symm⟩ hex2
      rw [hneg, maskOf_sentinel, zero_mul, Finset.sum_eq_zero]
      intro i hi
      rw [if_neg]
      intro he
      exact hex2 ⟨i, Finset.mem_range.mp hi, he⟩
  have hupd : ∀ x ∈ ex, (∑ q ∈ Finset.range P, maskOf (g q (ex.idxOf x)) *
      u q (readPos N (g q (ex.idxOf x))) : R) = holdersSum P N node u x := by
    intro x hx
    unfold holdersSum
    rw [Finset.sum_filter, Finset.sum_product]
    exact Finset.sum_congr rfl (fun q hq => hinit q (Finset.mem_range.mp hq) x hx)
  simp only [atAdd, List.map_map, Function.comp_def]
  rw [sum_map_range]
  by_cases hjx : node p j ∈ ex
  · rw [if_pos hjx, Finset.sum_eq_single (ex.idxOf (node p j))]
    · rw [(hg p hp).1 j hj hjx, writePos_natCast hj, if_pos rfl, maskOf_natCast, readPos_natCast hj,
        hupd _ hjx, one_mul, one_mul, add_sub_cancel]
    · intro k _ hkne
      rcases (hg p hp).2 k with h' | ⟨i, hi, h2, rfl⟩
      · rw [h', maskOf_sentinel]; simp
      · rw [(hg p hp).1 i hi h2, writePos_natCast hi, if_neg]
        intro he
        rw [Option.some.injEq] at he
        subst he
        exact hkne rfl
    · intro hn
      exact absurd (Finset.mem_range.mpr (List.idxOf_lt_length_iff.mpr hjx)) hn
  · rw [if_neg hjx, Finset.sum_eq_zero, add_zero]
    intro k _
    rcases (hg p hp).2 k with h' | ⟨i, hi, h2, rfl⟩
    · rw [h', maskOf_sentinel]; simp
    · rw [(hg p hp).1 i hi h2, writePos_natCast hi, if_neg]
      intro he
      rw [Option.some.injEq] at he
      subst he
      exact hjx h2

theorem holdersSum_of_not_mem {P N : ℕ} {node : ℕ → ℕ → ℤ} (u : ℕ → ℕ → R) {p j : ℕ} (hp : p < P)
    (hj : j < N) (hs : node p j ≠ -1) (h : node p j ∉ indicesToExchange (flattenNodes P N node)) :
    holdersSum P N node u (node p j) = u p j := by
  rw [mem_indicesToExchange, count_flattenNodes] at h
  unfold holdersSum
  have hjm : (p, j) ∈ (Finset.range P ×ˢ Finset.range N).filter (fun q => node q.1 q.2 = node p j) := by
    simp [hp, hj]
  have hcard : ((Finset.range P ×ˢ Finset.range N).filter
      (fun q => node q.1 q.2 = node p j)).card ≤ 1 := by
    by_contra hc
    exact h ⟨hs, by omega⟩
  have := Finset.card_le_one.mp hcard
  rw [Finset.sum_eq_single (p, j)]
  · intro b hb hbj
    exact absurd (this b hb _ hjm) hbj
  · intro hn; exact absurd hjm hn

end Verif.Core
