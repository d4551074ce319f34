import Verif.Prelude
import Verif.Model.MultiscalePerm

/-! Lemmas on the multiscale ordering. -/

namespace Verif.Niles

theorem mem_lex {n : ℕ} {x : ℕ × ℕ} : x ∈ lex n ↔ x.1 < n ∧ x.2 < n := by
  unfold lex
  simp only [List.mem_flatMap, List.mem_map, List.mem_range]
  constructor
  · rintro ⟨i, hi, j, hj, rfl⟩
    exact ⟨hi, hj⟩
  · rintro ⟨h1, h2⟩
    exact ⟨x.1, h1, x.2, h2, rfl⟩

theorem nodup_lex (n : ℕ) : (lex n).Nodup := by
  unfold lex
  rw [List.nodup_flatMap]
  refine ⟨fun i _ => List.nodup_range.map (fun a b h => by simpa using h), ?_⟩
  refine List.Pairwise.imp_of_mem ?_ List.nodup_range
  intro a b _ _ hab x h1 h2
  obtain ⟨j, _, rfl⟩ := List.mem_map.mp h1
  obtain ⟨j', _, h⟩ := List.mem_map.mp h2
  exact hab (by simpa using (congrArg Prod.fst h).symm)

/-- `p` lists the points of `[0, m) x [0, m)`, each once. -/
def IsBlock (m : ℕ) (p : List (ℕ × ℕ)) : Prop := p.Nodup ∧ ∀ x, x ∈ p ↔ x.1 < m ∧ x.2 < m

theorem isBlock_lex (n : ℕ) : IsBlock n (lex n) := ⟨nodup_lex n, fun _ => mem_lex⟩

theorem isBlock_shifted {m : ℕ} (hm : 0 < m) {p : List (ℕ × ℕ)} (hp : IsBlock m p) (n : ℕ) :
    IsBlock (m * n) (shifted p n m) := by
  have hdiv : ∀ y s : ℕ, y < m → (y + m * s) / m = s := by
    intro y s hy
    rw [Nat.add_mul_div_left _ _ hm, Nat.div_eq_of_lt hy, Nat.zero_add]
  constructor
  · unfold shifted
    rw [List.nodup_flatMap]
    constructor
    · intro s _
      exact hp.1.map (fun a b h => by
        simp only [Prod.mk.injEq] at h
        exact Prod.ext (by omega) (by omega))
    · refine List.Pairwise.imp_of_mem ?_ (nodup_lex n)
      intro s s' _ _ hne x h1 h2
      obtain ⟨y, hy, rfl⟩ := List.mem_map.mp h1
      obtain ⟨y', hy', h⟩ := List.mem_map.mp h2
      have b := (hp.2 y).mp hy
      have b' := (hp.2 y').mp hy'
      simp only [Prod.mk.injEq] at h
      apply hne
      have e1 := congrArg (· / m) h.1
      have e2 := congrArg (· / m) h.2
      simp only [hdiv _ _ b.1, hdiv _ _ b.2, hdiv _ _ b'.1, hdiv _ _ b'.2] at e1 e2
      exact Prod.ext e1.symm e2.symm
  · intro x
    unfold shifted
    simp only [List.mem_flatMap, List.mem_map, mem_lex]
    constructor
    · rintro ⟨s, ⟨h1, h2⟩, y, hy, rfl⟩
      have b := (hp.2 y).mp hy
      constructor
      · have : m * (s.1 + 1) ≤ m * n := Nat.mul_le_mul_left _ h1
        rw [Nat.mul_add, Nat.mul_one] at this
        simp only
        omega
      · have : m * (s.2 + 1) ≤ m * n := Nat.mul_le_mul_left _ h2
        rw [Nat.mul_add, Nat.mul_one] at this
        simp only
        omega
    · rintro ⟨h1, h2⟩
      refine ⟨(x.1 / m, x.2 / m), ⟨Nat.div_lt_of_lt_mul h1, Nat.div_lt_of_lt_mul h2⟩, (x.1 % m, x.2 % m),
        (hp.2 _).mpr ⟨Nat.mod_lt _ hm, Nat.mod_lt _ hm⟩, ?_⟩
      exact Prod.ext (Nat.mod_add_div _ _) (Nat.mod_add_div _ _)

/-- `p` is a sequence of runs of `m * m` points, each run inside one aligned `m x m` block. -/
def Chunked (m : ℕ) (p : List (ℕ × ℕ)) : Prop :=
  ∃ runs : List (List (ℕ × ℕ)), p = runs.flatten ∧
    ∀ r ∈ runs, r.length = m * m ∧ ∃ q : ℕ × ℕ, ∀ x ∈ r, x.1 / m = q.1 ∧ x.2 / m = q.2

theorem isBlock_length {m : ℕ} {p : List (ℕ × ℕ)} (hp : IsBlock m p) : p.length = m * m := by
  have h : p.Perm (lex m) := (List.perm_ext_iff_of_nodup hp.1 (nodup_lex m)).mpr (fun x => by rw [hp.2, mem_lex])
  rw [h.length_eq]
  unfold lex
  rw [List.length_flatMap]
  simp

theorem chunked_self {m : ℕ} {p : List (ℕ × ℕ)} (hp : IsBlock m p) : Chunked m p := by
  refine ⟨[p], by simp, ?_⟩
  intro r hr
  rw [List.mem_singleton] at hr
  subst hr
  refine ⟨isBlock_length hp, (0, 0), fun x hx => ?_⟩
  have := (hp.2 x).mp hx
  exact ⟨Nat.div_eq_of_lt this.1, Nat.div_eq_of_lt this.2⟩

theorem chunked_shifted {m : ℕ} (hm : 0 < m) {p : List (ℕ × ℕ)} (hp : Chunked m p) (n f : ℕ) :
    Chunked m (shifted p n (m * f)) := by
  obtain ⟨runs, rfl, hr⟩ := hp
  refine ⟨(lex n).flatMap (fun s => runs.map (fun r => r.map
    (fun x => (x.1 + m * f * s.1, x.2 + m * f * s.2)))), ?_, ?_⟩
  · unfold shifted
    rw [List.flatMap_def, List.flatMap_def, List.flatten_flatten, List.map_map]
    congr 1
    apply List.map_congr_left
    intro s _
    simp [List.map_flatten]
  · intro r hmem
    obtain ⟨s, _, h⟩ := List.mem_flatMap.mp hmem
    obtain ⟨r0, h0, rfl⟩ := List.mem_map.mp h
    obtain ⟨hl, q, hq⟩ := hr r0 h0
    refine ⟨by simpa using hl, (q.1 + f * s.1, q.2 + f * s.2), ?_⟩
    intro x hx
    obtain ⟨y, hy, rfl⟩ := List.mem_map.mp hx
    have := hq y hy
    constructor
    · simp only [Nat.mul_assoc]
      rw [Nat.add_mul_div_left _ _ hm, this.1]
    · simp only [Nat.mul_assoc]
      rw [Nat.add_mul_div_left _ _ hm, this.2]

/-- The result of the loop over patch sizes and factors. -/
theorem foldl_shifted : ∀ (patches factors : List ℕ) (m : ℕ) (p : List (ℕ × ℕ)), 0 < m → IsBlock m p →
    (∀ n ∈ patches, 0 < n) → (∀ k < patches.length, factors[k]? = some (m * (patches.take k).prod)) →
    IsBlock (m * patches.prod) ((List.zip patches factors).foldl (fun p pf => shifted p pf.1 pf.2) p) ∧
    ∀ k ≤ patches.length, Chunked (m * (patches.take k).prod)
      ((List.zip patches factors).foldl (fun p pf => shifted p pf.1 pf.2) p)
  | [], factors, m, p, hm, hp, _, _ => by
      refine ⟨by simpa using hp, ?_⟩
      intro k hk
      simpa using chunked_self hp
  | n :: patches, [], m, p, hm, hp, hpos, hf => by
      have := hf 0 (by simp)
      simp at this
  | n :: patches, f :: factors, m, p, hm, hp, hpos, hf => by
      have hf0 : f = m := by
        have := hf 0 (by simp)
        simpa using this
      subst hf0
      have hn := hpos n (by simp)
      have hb := isBlock_shifted hm hp n
      have ih := foldl_shifted patches factors (f * n) (shifted p n f) (Nat.mul_pos hm hn) hb
        (fun x hx => hpos x (List.mem_cons_of_mem _ hx)) (fun k hk => by
          have := hf (k + 1) (by simpa using hk)
          simpa [Nat.mul_assoc] using this)
      simp only [List.zip_cons_cons, List.foldl_cons]
      refine ⟨by simpa [Nat.mul_assoc] using ih.1, ?_⟩
      intro k hk
      cases k with
      | succ k =>
        have := ih.2 k (by simpa using hk)
        simpa [Nat.mul_assoc] using this
      | zero =>
        simp only [List.take_zero, List.prod_nil, Nat.mul_one]
        -- all later factors are multiples of `f`
        have h0 : Chunked f (shifted p n f) := by
          have := chunked_shifted hm (chunked_self hp) n 1
          simpa using this
        have later : ∀ (ps fs : List ℕ) (q : List (ℕ × ℕ)), Chunked f q →
            (∀ k < ps.length, ∃ g, fs[k]? = some (f * g)) →
            Chunked f ((List.zip ps fs).foldl (fun p pf => shifted p pf.1 pf.2) q) := by
          intro ps
          induction ps with
          | nil => intro fs q hq _; simpa using hq
          | cons a ps ihp =>
            intro fs q hq hfs
            cases fs with
            | nil => simpa using hq
            | cons b fs =>
              obtain ⟨g, hg⟩ := hfs 0 (by simp)
              have hb : b = f * g := by simpa using hg
              simp only [List.zip_cons_cons, List.foldl_cons]
              apply ihp
              · rw [hb]; exact chunked_shifted hm hq a g
              · intro k hk
                obtain ⟨g', hg'⟩ := hfs (k + 1) (by simpa using hk)
                exact ⟨g', by simpa using hg'⟩
        apply later _ _ _ h0
        intro k hk
        refine ⟨n * (patches.take k).prod, ?_⟩
        have := hf (k + 1) (by simpa using hk)
        simpa [Nat.mul_assoc] using this

/-! ### `argsort` of a permutation -/

theorem argsort_perm (a : List ℕ) : (argsort a).Perm (List.range a.length) := List.perm_insertionSort _ _

theorem argsort_length (a : List ℕ) : (argsort a).length = a.length := by
  rw [(argsort_perm a).length_eq, List.length_range]

theorem map_argsort (a : List ℕ) (ha : a.Perm (List.range a.length)) :
    (argsort a).map (fun i => a.getD i 0) = List.range a.length := by
  have hsorted : ((argsort a).map (fun i => a.getD i 0)).Pairwise (· ≤ ·) := by
    rw [List.pairwise_map]
    haveI : Std.Total (fun i j => a.getD i 0 ≤ a.getD j 0) := ⟨fun i j => le_total _ _⟩
    haveI : IsTrans ℕ (fun i j => a.getD i 0 ≤ a.getD j 0) := ⟨fun i j k h1 h2 => le_trans h1 h2⟩
    exact List.pairwise_insertionSort (fun i j => a.getD i 0 ≤ a.getD j 0) (List.range a.length)
  have hperm : ((argsort a).map (fun i => a.getD i 0)).Perm (List.range a.length) := by
    refine ((argsort_perm a).map _).trans ?_
    have : (List.range a.length).map (fun i => a.getD i 0) = a := by
      apply List.ext_getElem (by simp)
      intro i h1 h2
      rw [List.getElem_map, List.getElem_range, List.getD_eq_getElem _ _ h2]
    rw [this]
    exact ha
  exact List.Perm.eq_of_pairwise (le := (· ≤ ·)) (fun _ _ _ _ h1 h2 => le_antisymm h1 h2) hsorted
    (List.pairwise_le_range) hperm

theorem argsort_right (a : List ℕ) (ha : a.Perm (List.range a.length)) (k : ℕ) (hk : k < a.length) :
    a.getD ((argsort a).getD k 0) 0 = k := by
  have h := map_argsort a ha
  have hl : k < (argsort a).length := by rw [argsort_length]; exact hk
  have := congrArg (fun l : List ℕ => l.getD k 0) h
  beta_reduce at this
  have e1 : ((argsort a).map (fun i => a.getD i 0)).getD k 0 = a.getD ((argsort a).getD k 0) 0 := by
    rw [List.getD_eq_getElem (d := 0) _ (show k < ((argsort a).map (fun i => a.getD i 0)).length by simpa using hl),
      List.getElem_map, List.getD_eq_getElem (argsort a) _ hl]
  have e2 : (List.range a.length).getD k 0 = k := by
    rw [List.getD_eq_getElem _ _ (by simpa using hk), List.getElem_range]
  rw [e1, e2] at this
  exact this

theorem argsort_lt (a : List ℕ) (k : ℕ) (hk : k < a.length) : (argsort a).getD k 0 < a.length := by
  have hl : k < (argsort a).length := by rw [argsort_length]; exact hk
  rw [List.getD_eq_getElem _ _ hl]
  have := (argsort_perm a).subset (List.getElem_mem hl)
  exact List.mem_range.mp this

theorem argsort_left (a : List ℕ) (ha : a.Perm (List.range a.length)) (k : ℕ) (hk : k < a.length) :
    (argsort a).getD (a.getD k 0) 0 = k := by
  have hlt : a.getD k 0 < a.length := by
    rw [List.getD_eq_getElem _ _ hk]
    exact List.mem_range.mp (ha.subset (List.getElem_mem hk))
  have h1 := argsort_right a ha (a.getD k 0) hlt
  have h2 := argsort_lt a (a.getD k 0) hlt
  have hnd : a.Nodup := ha.nodup_iff.mpr List.nodup_range
  generalize (argsort a).getD (a.getD k 0) 0 = j at h1 h2
  rw [List.getD_eq_getElem _ _ h2, List.getD_eq_getElem _ _ hk] at h1
  exact (List.Nodup.getElem_inj_iff hnd).mp h1

/-! ### `takeIdx` -/

theorem takeIdx_some {α : Type*} (x : List α) : ∀ (idx : List ℕ), (∀ i ∈ idx, i < x.length) →
    ∃ y, takeIdx x idx = some y ∧ y.length = idx.length ∧ ∀ k < idx.length, y[k]? = x[idx.getD k 0]?
  | [], _ => ⟨[], rfl, rfl, fun k hk => absurd hk (by simp)⟩
  | i :: idx, h => by
      obtain ⟨y, h1, h2, h3⟩ := takeIdx_some x idx (fun j hj => h j (List.mem_cons_of_mem _ hj))
      have hi := h i (by simp)
      refine ⟨x[i] :: y, ?_, by simp [h2], ?_⟩
      · unfold takeIdx at h1 ⊢
        rw [List.mapM_cons, List.getElem?_eq_getElem hi, h1]
        rfl
      · intro k hk
        cases k with
        | zero => simp [List.getElem?_eq_getElem hi]
        | succ k =>
          have := h3 k (by simpa using hk)
          simpa using this

end Verif.Niles
