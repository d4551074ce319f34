import Verif.Lemmas.Crystal
import Verif.Lemmas.PScan
import Verif.Spec.Devices

/-!
# C04, C07, C08, C09: shuffle patterns and the crystal router
-/

namespace Verif.Comm

open Verif.Spec

/-- C04 for `pscan`: at every stage the shuffle pattern swaps partners. -/
theorem C04_scan_shuffles (P : ℕ) :
    ∀ s ∈ scanSchedule P (fun _ => P) (fun _ => 0), SwapsPartners P s.target := by
  have key : ∀ n base : ℕ → ℕ, GroupInv P n base →
      ∀ s ∈ scanSchedule P n base, SwapsPartners P s.target := by
    intro n base h
    induction n, base using scanSchedule.induct (P := P) with
    | case1 n base hc ih =>
      rw [scanSchedule_pos hc]
      intro s hs
      rcases List.mem_cons.1 hs with rfl | hs
      · exact fun i hi => ⟨scanStage_target_lt h i hi, scanStage_target_inv h i hi⟩
      · exact ih h.next s hs
    | case2 n base hc =>
      rw [scanSchedule_neg hc]
      intro s hs
      cases hs
  exact key _ _ (GroupInv.init P)

example : (scanSchedule 3 (fun _ => 3) (fun _ => 0)).length = 2 := by
  rw [scanSchedule_pos (by decide), scanSchedule_pos (by decide), scanSchedule_neg (by decide)]
  rfl

/-- C04 for the crystal router: at stage `d` the first pattern swaps partners, and so does the second
whenever it is used (some device receives from two). -/
theorem C04_router_shuffles (P d : ℕ) :
    let n := (lev (fun _ => P) (fun _ => 0) d).1
    let base := (lev (fun _ => P) (fun _ => 0) d).2
    SwapsPartners P (target1 n base) ∧
    (1 < maxGlobal P (numRecv n base) → SwapsPartners P (target2 n base)) := by
  obtain ⟨h, hb⟩ := lev_inv (GroupInv.init P) (fun i _ j _ => Nat.le_succ P) d
  refine ⟨fun i hi => ⟨target1_lt h i hi, target1_inv h i hi⟩, fun hm i hi => ?_⟩
  have h2 := n_ge_two h hb hm
  exact ⟨target2_lt h h2 i hi, target2_inv h h2 i hi⟩

/-- The second pattern is used e.g. with five devices, at the first stage. -/
example : 1 < maxGlobal 5 (numRecv (fun _ => 5) (fun _ => 0)) := by decide

variable {ρ δ : Type*}

/-- C04, observable effect: the router never raises, whatever the targets are. -/
theorem C04_router_never_raises (P : ℕ) (tgt : ρ → ℤ) (z f : ρ) (size fuel : ℕ) (st : ℕ → CrystalData ρ)
    (hn : ∀ p < P, (st p).n ≤ size) (e : String) :
    crystalRouter P tgt z f size fuel st ≠ some (.error e) := by
  have hle := le_bitCeil size
  exact while_no_error z f fuel _ _ (fun i => resize_len _ _ _) (fun i hi => le_trans (hn i hi) hle) 0 e

example : ∀ p < 3, (CrystalData.mk [(7 : ℤ), -1] 2).n ≤ 2 := by decide

/-! ### C07 -/

/-- C07 for at least two devices. `st p` is what device `p` passes in: `size` rows of which `n` count,
with in range targets. For every number of runs of the retry loop above a bound that depends only on
`P`, the router returns, and the rows that count on device `p` are as a multiset the rows of all devices
with target `p`. What is missing: `P = 1`, where the claim is false. -/
theorem C07_delivery_partial (P : ℕ) (hP : 2 ≤ P) (tgt : ρ → ℤ) (z f : ρ) (size : ℕ)
    (st : ℕ → CrystalData ρ)
    (hlen : ∀ p < P, (st p).data.length = size) (hn : ∀ p < P, (st p).n ≤ size)
    (ht : ∀ p < P, ∀ r ∈ (st p).data.take (st p).n, 0 ≤ tgt r ∧ tgt r < (P : ℤ))
    (fuel : ℕ) (hfuel : Nat.clog 2 P + 1 ≤ fuel) :
    ∃ out, crystalRouter P tgt z f size fuel st = some (.ok out) ∧
      ∀ p < P, (out p).n ≤ (out p).data.length ∧
        (((out p).data.take (out p).n : List ρ) : Multiset ρ) =
          (collect P (fun q => (st q).n) (fun q => (st q).data) (fun _ r => r)).filter
            (fun r => tgt r = (p : ℤ)) := by
  obtain ⟨out, e1, e2⟩ := router_spec hP tgt z f size st hlen hn ht fuel hfuel
  refine ⟨out, e1, fun p hp => ⟨?_, ?_⟩⟩
  · rw [(e2 p hp).1]
    exact le_maxGlobal (fun p => (out p).n) hp
  · have := (e2 p hp).2
    unfold CrystalData.valid at this
    rw [this]
    unfold collect
    simp

/-- The hypotheses of C07 with five devices, ragged lengths, skewed targets. -/
example : let st : ℕ → CrystalData ℤ := fun p => ⟨[4, 0, 4], p % 4⟩
    (∀ p < 5, (st p).data.length = 3) ∧ (∀ p < 5, (st p).n ≤ 3) ∧
    (∀ p < 5, ∀ r ∈ (st p).data.take (st p).n, 0 ≤ r ∧ r < (5 : ℤ)) := by decide

/-- C07 is violated on one device: nothing is left of the rows although `n` claims they are there. -/
theorem C07_delivery_violated (tgt : ρ → ℤ) (z f : ρ) (size fuel : ℕ) (st : ℕ → CrystalData ρ) :
    ∃ out, crystalRouter 1 tgt z f size (fuel + 1) st = some (.ok out) ∧
      (out 0).data = [] ∧ (out 0).n = (st 0).n := by
  unfold crystalRouter crystalWhile
  rw [crystalLoop, dif_neg (by decide)]
  simp only
  rw [if_neg (by omega)]
  exact ⟨_, rfl, rfl, rfl⟩

/-- Witness: one row with target 0 on the only device is lost. -/
theorem C07_delivery_violated_witness :
    ¬ ∀ (st : ℕ → CrystalData ℤ), (∀ p < 1, (st p).data.length = 1) → (∀ p < 1, (st p).n ≤ 1) →
      (∀ p < 1, ∀ r ∈ (st p).data.take (st p).n, 0 ≤ r ∧ r < ((1 : ℕ) : ℤ)) →
      ∃ fuel out, crystalRouter 1 id 0 0 1 fuel st = some (.ok out) ∧
        (((out 0).data.take (out 0).n : List ℤ) : Multiset ℤ) =
          (collect 1 (fun q => (st q).n) (fun q => (st q).data) (fun _ r => r)).filter
            (fun r => r = ((0 : ℕ) : ℤ)) := by
  intro hall
  obtain ⟨fuel, out, h1, h2⟩ := hall (fun _ => ⟨[0], 1⟩) (by decide) (by decide) (by decide)
  obtain ⟨fuel, rfl⟩ : ∃ g, fuel = g + 1 := by
    cases fuel with
    | zero => simp [crystalRouter, crystalWhile] at h1
    | succ g => exact ⟨g, rfl⟩
  obtain ⟨out', e1, e2, e3⟩ := C07_delivery_violated id 0 0 1 fuel (fun _ => ⟨[(0 : ℤ)], 1⟩)
  rw [e1] at h1
  simp only [Option.some.injEq, Except.ok.injEq] at h1
  subst h1
  rw [e2] at h2
  have h3 := congrArg Multiset.card h2
  simp [collect] at h3
  rw [one_nsmul] at h3
  simp [Multiset.filter_singleton] at h3

/-! ### C08 -/

theorem api_spec (P : ℕ) (hP : 2 ≤ P) (z f : ℤ × δ) (fs : ℤ) (size : ℕ)
    (st : ℕ → CrystalData (ℤ × δ))
    (hlen : ∀ p < P, (st p).data.length = size) (hn : ∀ p < P, (st p).n ≤ size)
    (ht : ∀ p < P, ∀ r ∈ (st p).data.take (st p).n, 0 ≤ r.1 ∧ r.1 < (P : ℤ))
    (fuel : ℕ) (hfuel : Nat.clog 2 P + 1 ≤ fuel) :
    ∃ out, crystalRouterApi P z f fs size fuel st = some (.ok out) ∧
      ∀ p < P, (out p).data.length = maxGlobal P (fun p => (out p).n) ∧
        (out p).n ≤ (out p).data.length ∧
        (((out p).data.take (out p).n : List (δ × ℤ)) : Multiset (δ × ℤ)) =
        ((collect P (fun q => (st q).n) (fun q => (st q).data) (fun q r => (r, (q : ℤ)))).filter
          (fun r => r.1.1 = (p : ℤ))).map (fun r => (r.1.2, r.2)) := by
  obtain ⟨out, e1, e2⟩ := routerSource_spec hP Prod.fst z f fs size st hlen hn ht fuel hfuel
  refine ⟨_, by unfold crystalRouterApi; rw [e1], fun p hp => ⟨?_, ?_, ?_⟩⟩
  · simp only [List.length_map]
    exact (e2 p hp).1
  · simp only [List.length_map]
    rw [(e2 p hp).1]
    exact le_maxGlobal (fun p => (out p).n) hp
  · have := (e2 p hp).2
    unfold CrystalData.valid at this
    simp only [← List.map_take]
    rw [← Multiset.map_coe, this]
    rfl

/-- C08, labels. With `return_source`, the rows on device `p` are exactly the pairs `(data, q)` for the
rows with target `p` passed in by device `q`. -/
theorem C08_source_labels (P : ℕ) (hP : 2 ≤ P) (z f : ℤ × δ) (fs : ℤ) (size : ℕ)
    (st : ℕ → CrystalData (ℤ × δ))
    (hlen : ∀ p < P, (st p).data.length = size) (hn : ∀ p < P, (st p).n ≤ size)
    (ht : ∀ p < P, ∀ r ∈ (st p).data.take (st p).n, 0 ≤ r.1 ∧ r.1 < (P : ℤ))
    (fuel : ℕ) (hfuel : Nat.clog 2 P + 1 ≤ fuel) :
    ∃ out, crystalRouterApi P z f fs size fuel st = some (.ok out) ∧
      ∀ p < P, (((out p).data.take (out p).n : List (δ × ℤ)) : Multiset (δ × ℤ)) =
        ((collect P (fun q => (st q).n) (fun q => (st q).data) (fun q r => (r, (q : ℤ)))).filter
          (fun r => r.1.1 = (p : ℤ))).map (fun r => (r.1.2, r.2)) := by
  obtain ⟨out, e1, e2⟩ := api_spec P hP z f fs size st hlen hn ht fuel hfuel
  exact ⟨out, e1, fun p hp => (e2 p hp).2.2⟩

theorem filter_map_sum {σ : Type*} (P : ℕ) (g : ℕ → Multiset σ) (q : σ → Prop) [DecidablePred q] :
    (∑ p ∈ Finset.range P, g p).filter q = ∑ p ∈ Finset.range P, (g p).filter q := by
  induction P with
  | zero => simp
  | succ P ih => rw [Finset.sum_range_succ, Finset.sum_range_succ, Multiset.filter_add, ih]

theorem map_sum {σ τ : Type*} (P : ℕ) (g : ℕ → Multiset σ) (q : σ → τ) :
    (∑ p ∈ Finset.range P, g p).map q = ∑ p ∈ Finset.range P, (g p).map q := by
  induction P with
  | zero => simp
  | succ P ih => rw [Finset.sum_range_succ, Finset.sum_range_succ, Multiset.map_add, ih]

/-- C08, round trip. Passing the output back in, with `source` as the new target, returns on each
device the original rows `(data, target)`, the target being the new source label, up to order. -/
theorem C08_round_trip (P : ℕ) (hP : 2 ≤ P) (z f : ℤ × δ) (fs : ℤ) (size : ℕ)
    (st : ℕ → CrystalData (ℤ × δ))
    (hlen : ∀ p < P, (st p).data.length = size) (hn : ∀ p < P, (st p).n ≤ size)
    (ht : ∀ p < P, ∀ r ∈ (st p).data.take (st p).n, 0 ≤ r.1 ∧ r.1 < (P : ℤ))
    (fuel : ℕ) (hfuel : Nat.clog 2 P + 1 ≤ fuel) :
    ∃ out, crystalRouterApi P z f fs size fuel st = some (.ok out) ∧
    ∃ back, crystalRouterApi P z f fs (out 0).data.length fuel
        (fun p => { data := (out p).data.map (fun r => (r.2, r.1)), n := (out p).n }) = some (.ok back) ∧
      ∀ p < P, (((back p).data.take (back p).n : List (δ × ℤ)) : Multiset (δ × ℤ)) =
        (((st p).data.take (st p).n).map (fun r => (r.2, r.1)) : Multiset (δ × ℤ)) := by
  obtain ⟨out, e1, e2⟩ := api_spec P hP z f fs size st hlen hn ht fuel hfuel
  refine ⟨out, e1, ?_⟩
  obtain ⟨back, b1, b2⟩ := api_spec P hP z f fs (out 0).data.length
    (fun p => { data := (out p).data.map (fun r => (r.2, r.1)), n := (out p).n })
    (fun p hp => by
      simp only [List.length_map]
      rw [(e2 p hp).1, (e2 0 (by omega)).1])
    (fun p hp => by
      have h1 := (e2 p hp).2.1
      rw [(e2 p hp).1] at h1
      rw [(e2 0 (by omega)).1]; exact h1)
    (fun p hp r hr => by
      simp only [← List.map_take] at hr
      obtain ⟨r', hr', rfl⟩ := List.mem_map.1 hr
      have hr2 : r' ∈ (((out p).data.take (out p).n : List (δ × ℤ)) : Multiset (δ × ℤ)) := by simpa using hr'
      rw [(e2 p hp).2.2] at hr2
      obtain ⟨r3, hr3, rfl⟩ := Multiset.mem_map.1 hr2
      have hr4 := (Multiset.mem_filter.1 hr3).1
      unfold collect at hr4
      rw [Multiset.mem_sum] at hr4
      obtain ⟨q, hq, hr5⟩ := hr4
      have hr5 : r3 ∈ ((st q).data.take (st q).n).map (fun r => (r, (q : ℤ))) := by simpa using hr5
      obtain ⟨r6, -, rfl⟩ := List.mem_map.1 hr5
      have := Finset.mem_range.1 hq
      simp only
      omega) fuel hfuel
  refine ⟨back, b1, fun p hp => ?_⟩
  rw [(b2 p hp).2.2]
  unfold collect
  simp only [← List.map_take, List.map_map]
  rw [filter_map_sum, map_sum]
  -- the part of the second exchange that comes from device q
  have hq : ∀ q ∈ Finset.range P,
      ((((List.map ((fun r => (r, (q : ℤ))) ∘ fun r : δ × ℤ => (r.2, r.1))
        ((out q).data.take (out q).n) : List ((ℤ × δ) × ℤ)) : Multiset ((ℤ × δ) × ℤ)).filter
          (fun r => r.1.1 = (p : ℤ))).map (fun r => (r.1.2, r.2))) =
      ((((st p).data.take (st p).n : List (ℤ × δ)) : Multiset (ℤ × δ)).filter (fun r => r.1 = (q : ℤ))).map
        (fun r => (r.2, r.1)) := by
    intro q hq
    have hq := Finset.mem_range.1 hq
    rw [← Multiset.map_coe, (e2 q hq).2.2]
    unfold collect
    rw [filter_map_sum, map_sum, map_sum, filter_map_sum, map_sum]
    rw [Finset.sum_eq_single p]
    · rw [← Multiset.map_coe]
      simp only [Multiset.filter_map, Multiset.map_map, Function.comp_def, Multiset.filter_filter]
      have : ∀ (s : Multiset (ℤ × δ)), Multiset.map (fun x : ℤ × δ => (x.2, (q : ℤ)))
          (s.filter (fun a => a.1 = (q : ℤ))) =
          Multiset.map (fun x : ℤ × δ => (x.2, x.1)) (s.filter (fun a => a.1 = (q : ℤ))) := by
        intro s
        refine Multiset.map_congr rfl (fun x hx => ?_)
        rw [(Multiset.mem_filter.1 hx).2]
      have := this (((st p).data.take (st p).n : List (ℤ × δ)) : Multiset (ℤ × δ))
      simp at this ⊢
      exact this
    · intro q' _ hne
      rw [← Multiset.map_coe]
      simp only [Multiset.filter_map, Multiset.map_map, Function.comp_def, Multiset.filter_filter]
      have : ¬ ((q' : ℤ) = (p : ℤ)) := by omega
      simp [this]
    · intro hh; exact absurd (Finset.mem_range.2 hp) hh
  rw [Finset.sum_congr rfl hq, ← map_sum]
  rw [← Multiset.map_coe]
  congr 1
  -- every row has exactly one target
  have htp := ht p hp
  generalize (st p).data.take (st p).n = l at htp
  induction l with
  | nil => simp
  | cons a l ih =>
    have ha := htp a (by simp)
    rw [← Multiset.cons_coe]
    have e : ∀ q ∈ Finset.range P, (a ::ₘ (l : Multiset (ℤ × δ))).filter (fun r => r.1 = (q : ℤ)) =
        (if q = a.1.toNat then {a} else 0) + (l : Multiset (ℤ × δ)).filter (fun r => r.1 = (q : ℤ)) := by
      intro q _
      split
      · next hc =>
        rw [Multiset.filter_cons_of_pos _ (by omega)]
        rw [Multiset.singleton_add]
      · next hc => rw [Multiset.filter_cons_of_neg _ (by omega), zero_add]
    rw [Finset.sum_congr rfl e, Finset.sum_add_distrib, ih (fun r hr => htp r (by simp [hr])),
      Finset.sum_ite_eq', if_pos (Finset.mem_range.2 (by omega)), Multiset.singleton_add]

/-- The hypotheses of C08 with three devices. -/
example : let st : ℕ → CrystalData (ℤ × ℕ) := fun p => ⟨[(2, 10 * p), (0, 10 * p + 1)], p % 3⟩
    (∀ p < 3, (st p).data.length = 2) ∧ (∀ p < 3, (st p).n ≤ 2) ∧
    (∀ p < 3, ∀ r ∈ (st p).data.take (st p).n, 0 ≤ r.1 ∧ r.1 < (3 : ℤ)) := by decide

/-! ### C09 -/

/-- C09. The retry loop ends within `⌈log2 P⌉ + 1` runs whatever the initial static size and the skew of
the targets, the result is the same for any larger budget, and the static length of the result is the
largest dynamic length. (That no clobbered row is in the result is part of C07.) -/
theorem C09_buffer_growth (P : ℕ) (hP : 2 ≤ P) (tgt : ρ → ℤ) (z f : ρ) (size : ℕ)
    (st : ℕ → CrystalData ρ)
    (hlen : ∀ p < P, (st p).data.length = size) (hn : ∀ p < P, (st p).n ≤ size)
    (ht : ∀ p < P, ∀ r ∈ (st p).data.take (st p).n, 0 ≤ tgt r ∧ tgt r < (P : ℤ)) :
    ∃ out, (∀ fuel ≥ Nat.clog 2 P + 1, crystalRouter P tgt z f size fuel st = some (.ok out)) ∧
      (∀ p < P, (out p).data.length = (Finset.range P).sup (fun q => (out q).n)) ∧
      ∃ q < P, (out q).n = (Finset.range P).sup (fun q => (out q).n) := by
  have mono : ∀ (fuel B : ℕ) (st : ℕ → CrystalData ρ) (i : ℕ) (r : Except String (ℕ → CrystalData ρ)),
      crystalWhile P tgt z f fuel B st i = some r → crystalWhile P tgt z f (fuel + 1) B st i = some r := by
    intro fuel
    induction fuel with
    | zero => intro B st i r hr; simp [crystalWhile] at hr
    | succ fuel ih =>
      intro B st i r hr
      rw [crystalWhile] at hr ⊢
      split
      · next e he => rw [he] at hr; exact hr
      · next st' mx i' he =>
        rw [he] at hr
        simp only at hr
        split
        · next hc => rw [if_pos hc] at hr; exact ih _ _ _ _ hr
        · next hc => rw [if_neg hc] at hr; exact hr
  have mono' : ∀ (d fuel : ℕ) (r : Except String (ℕ → CrystalData ρ)),
      crystalRouter P tgt z f size fuel st = some r → crystalRouter P tgt z f size (fuel + d) st = some r := by
    intro d
    induction d with
    | zero => exact fun _ _ h => h
    | succ d ih => exact fun fuel r h => mono _ _ _ _ _ (ih fuel r h)
  obtain ⟨out, e1, e2⟩ := router_spec hP tgt z f size st hlen hn ht _ le_rfl
  refine ⟨out, fun fuel hf => ?_, fun p hp => (e2 p hp).1, ?_⟩
  · have := mono' (fuel - (Nat.clog 2 P + 1)) _ _ e1
    rwa [show Nat.clog 2 P + 1 + (fuel - (Nat.clog 2 P + 1)) = fuel by omega] at this
  · obtain ⟨q, hq, e⟩ := Finset.exists_mem_eq_sup (Finset.range P) ⟨0, Finset.mem_range.2 (by omega)⟩
      (fun q => (out q).n)
    exact ⟨q, Finset.mem_range.1 hq, e.symm⟩

/-- The hypotheses of C09 with everything sent to one device, from a static size of one. -/
example : let st : ℕ → CrystalData ℤ := fun _ => ⟨[3], 1⟩
    (∀ p < 7, (st p).data.length = 1) ∧ (∀ p < 7, (st p).n ≤ 1) ∧
    (∀ p < 7, ∀ r ∈ (st p).data.take (st p).n, 0 ≤ r ∧ r < (7 : ℤ)) := by decide

end Verif.Comm
