import Verif.Lemmas.CrystalAny
import Verif.Spec.Devices
import Mathlib.Tactic.IntervalCases

/-!
# C134: rows sent to a device that does not exist

`crystal_router` checks nothing about `target`. The property a user would like is that no row disappears
without an error. It holds when the number of devices is a power of two and fails for every other number
of devices from three on.
-/

namespace Verif.Comm

open Verif.Spec

variable {δ : Type*}

/-- C134, the exact outcome for any targets: a row `(t, x)` that device `q` passes in comes out as `(x, q)`
on the device nearest to `t`, with one exception: if the number of devices is not a power of two, the rows
with `t` beyond the last device do not come out at all. What is missing from the property is this
exception (`C134_violated`). -/
theorem C134_outcome_partial (P : ℕ) (hP : 2 ≤ P) [Decidable (∃ k, P = 2 ^ k)] (z f : ℤ × δ) (fs : ℤ)
    (size : ℕ) (st : ℕ → CrystalData (ℤ × δ))
    (hlen : ∀ p < P, (st p).data.length = size) (hn : ∀ p < P, (st p).n ≤ size)
    (fuel : ℕ) (hfuel : Nat.clog 2 P + 1 ≤ fuel) :
    ∃ out, crystalRouterApi P z f fs size fuel st = some (.ok out) ∧
      ∀ p < P, (out p).n ≤ (out p).data.length ∧
        (((out p).data.take (out p).n : List (δ × ℤ)) : Multiset (δ × ℤ)) =
        ((collect P (fun q => (st q).n) (fun q => (st q).data) (fun q r => (r, (q : ℤ)))).filter
          (fun r => max 0 (min r.1.1 ((P : ℤ) - 1)) = (p : ℤ) ∧ (r.1.1 < (P : ℤ) ∨ ∃ k, P = 2 ^ k))).map
            (fun r => (r.1.2, r.2)) := by
  obtain ⟨out, e1, e2⟩ := routerSource_any hP Prod.fst z f fs size st hlen hn fuel hfuel
  refine ⟨_, by unfold crystalRouterApi; rw [e1], fun p hp => ⟨?_, ?_⟩⟩
  · simp only [List.length_map]
    rw [(e2 p hp).1]
    exact le_maxGlobal (fun p => (out p).n) hp
  · have := (e2 p hp).2
    unfold CrystalData.valid at this
    simp only [← List.map_take]
    rw [← Multiset.map_coe, this]
    rfl

/-- Five devices, targets on both sides of the range: the hypotheses hold. -/
example : let st : ℕ → CrystalData (ℤ × ℤ) := fun p => ⟨[(7, 1), (-2, 2), (3, 3)], p % 4⟩
    (∀ p < 5, (st p).data.length = 3) ∧ (∀ p < 5, (st p).n ≤ 3) := by decide

theorem map_sum_range {σ τ : Type*} (s : Finset ℕ) (g : ℕ → Multiset σ) (q : σ → τ) :
    (∑ p ∈ s, g p).map q = ∑ p ∈ s, (g p).map q := by
  classical
  induction s using Finset.induction_on with
  | empty => simp
  | insert a s ha ih => rw [Finset.sum_insert ha, Finset.sum_insert ha, Multiset.map_add, ih]

/-- Splitting a collection by the nearest device. -/
theorem sum_nearest {σ : Type*} (P : ℕ) (hP : 0 < P) (t : σ → ℤ) (q : σ → Prop) [DecidablePred q]
    (M : Multiset σ) :
    ∑ p ∈ Finset.range P, M.filter (fun r => max 0 (min (t r) ((P : ℤ) - 1)) = (p : ℤ) ∧ q r) =
      M.filter q := by
  classical
  induction M using Multiset.induction_on with
  | empty => simp
  | cons a M ih =>
    by_cases hq : q a
    · rw [Multiset.filter_cons_of_pos _ hq, ← ih]
      obtain ⟨p, hp⟩ : ∃ p : ℕ, max 0 (min (t a) ((P : ℤ) - 1)) = (p : ℤ) :=
        ⟨(max 0 (min (t a) ((P : ℤ) - 1))).toNat, by omega⟩
      have hpP : p ∈ Finset.range P := Finset.mem_range.2 (by omega)
      rw [← Finset.add_sum_erase _ _ hpP,
        ← Finset.add_sum_erase _ (fun p : ℕ => M.filter
          (fun r => max 0 (min (t r) ((P : ℤ) - 1)) = (p : ℤ) ∧ q r)) hpP,
        Multiset.filter_cons_of_pos _ ⟨hp, hq⟩, Multiset.cons_add]
      congr 2
      refine Finset.sum_congr rfl (fun p' hp' => ?_)
      rw [Multiset.filter_cons_of_neg]
      rintro ⟨h1, -⟩
      have := Finset.ne_of_mem_erase hp'
      omega
    · rw [Multiset.filter_cons_of_neg _ hq, ← ih]
      refine Finset.sum_congr rfl (fun p _ => ?_)
      rw [Multiset.filter_cons_of_neg]
      exact fun h => hq h.2

/-- C134 when the number of devices is a power of two: all devices together hold exactly the rows that went
in, with their source labels, whatever the targets are. -/
theorem C134_power_of_two (k : ℕ) (hk : 1 ≤ k) (z f : ℤ × δ) (fs : ℤ)
    (size : ℕ) (st : ℕ → CrystalData (ℤ × δ))
    (hlen : ∀ p < 2 ^ k, (st p).data.length = size) (hn : ∀ p < 2 ^ k, (st p).n ≤ size)
    (fuel : ℕ) (hfuel : Nat.clog 2 (2 ^ k) + 1 ≤ fuel) :
    ∃ out, crystalRouterApi (2 ^ k) z f fs size fuel st = some (.ok out) ∧
      collect (2 ^ k) (fun p => (out p).n) (fun p => (out p).data) (fun _ r => r) =
        collect (2 ^ k) (fun p => (st p).n) (fun p => (st p).data) (fun p r => (r.2, (p : ℤ))) := by
  classical
  have hP : 2 ≤ 2 ^ k := by
    calc 2 = 2 ^ 1 := rfl
      _ ≤ 2 ^ k := Nat.pow_le_pow_right (by omega) hk
  obtain ⟨out, e1, e2⟩ := C134_outcome_partial (2 ^ k) hP z f fs size st hlen hn fuel hfuel
  refine ⟨out, e1, ?_⟩
  conv_lhs => unfold collect
  have e3 : ∀ p ∈ Finset.range (2 ^ k),
      ((((out p).data.take (out p).n).map (fun r => r) : List (δ × ℤ)) : Multiset (δ × ℤ)) =
      _ := fun p hp => (congrArg _ (List.map_id' _)).trans (e2 p (Finset.mem_range.1 hp)).2
  rw [Finset.sum_congr rfl e3, ← map_sum_range,
    sum_nearest (2 ^ k) (by omega) (fun r : (ℤ × δ) × ℤ => r.1.1)
      (fun r => r.1.1 < ((2 ^ k : ℕ) : ℤ) ∨ ∃ j, 2 ^ k = 2 ^ j),
    Multiset.filter_eq_self.2 (fun r _ => .inr ⟨k, rfl⟩)]
  unfold collect
  rw [map_sum_range]
  refine Finset.sum_congr rfl (fun p _ => ?_)
  rw [Multiset.map_coe, List.map_map]
  rfl

/-- Four devices. -/
example : let st : ℕ → CrystalData (ℤ × ℤ) := fun p => ⟨[(7, 1), (-2, 2), (3, 3)], p % 4⟩
    (∀ p < 2 ^ 2, (st p).data.length = 3) ∧ (∀ p < 2 ^ 2, (st p).n ≤ 3) := by decide

/-- C134 is violated whenever the number of devices is not a power of two: all devices together hold
exactly the rows whose target is below the number of devices; every other row is gone, and no error is
raised. -/
theorem C134_lost (P : ℕ) (hP : 2 ≤ P) (hpow : ¬ ∃ k, P = 2 ^ k) (z f : ℤ × δ) (fs : ℤ)
    (size : ℕ) (st : ℕ → CrystalData (ℤ × δ))
    (hlen : ∀ p < P, (st p).data.length = size) (hn : ∀ p < P, (st p).n ≤ size)
    (fuel : ℕ) (hfuel : Nat.clog 2 P + 1 ≤ fuel) :
    ∃ out, crystalRouterApi P z f fs size fuel st = some (.ok out) ∧
      collect P (fun p => (out p).n) (fun p => (out p).data) (fun _ r => r) =
        ((collect P (fun p => (st p).n) (fun p => (st p).data) (fun p r => (r, (p : ℤ)))).filter
          (fun r => r.1.1 < (P : ℤ))).map (fun r => (r.1.2, r.2)) := by
  classical
  obtain ⟨out, e1, e2⟩ := C134_outcome_partial P hP z f fs size st hlen hn fuel hfuel
  refine ⟨out, e1, ?_⟩
  conv_lhs => unfold collect
  have e3 : ∀ p ∈ Finset.range P,
      ((((out p).data.take (out p).n).map (fun r => r) : List (δ × ℤ)) : Multiset (δ × ℤ)) =
      _ := fun p hp => (congrArg _ (List.map_id' _)).trans (e2 p (Finset.mem_range.1 hp)).2
  rw [Finset.sum_congr rfl e3, ← map_sum_range,
    sum_nearest P (by omega) (fun r : (ℤ × δ) × ℤ => r.1.1)
      (fun r => r.1.1 < (P : ℤ) ∨ ∃ j, P = 2 ^ j)]
  congr 1
  exact Multiset.filter_congr (fun r _ => by simp [hpow])

/-- Three is not a power of two. -/
theorem three_not_pow : ¬ ∃ k, 3 = 2 ^ k := by
  rintro ⟨k, hk⟩
  have : k < 2 := by
    by_contra hc
    have : 2 ^ 2 ≤ 2 ^ k := Nat.pow_le_pow_right (by omega) (by omega)
    omega
  interval_cases k <;> omega

example : ∃ P, 2 ≤ P ∧ ¬ ∃ k, P = 2 ^ k := ⟨3, by omega, three_not_pow⟩

/-- Witness, for every number of devices that is not a power of two: one device sends one row one past the
last device, and every device ends up with nothing. -/
theorem C134_violated (P : ℕ) (hP : 2 ≤ P) (hpow : ¬ ∃ k, P = 2 ^ k) (z f : ℤ × δ) (fs : ℤ) (x : δ)
    (fuel : ℕ) (hfuel : Nat.clog 2 P + 1 ≤ fuel) :
    ∃ out, crystalRouterApi P z f fs 1 fuel
        (fun p => ⟨[((P : ℤ), x)], if p = 0 then 1 else 0⟩) = some (.ok out) ∧
      ∀ p < P, (out p).n = 0 := by
  classical
  obtain ⟨out, e1, e2⟩ := C134_outcome_partial P hP z f fs 1
    (fun p => ⟨[((P : ℤ), x)], if p = 0 then 1 else 0⟩) (fun p _ => rfl)
    (fun p _ => by simp only; split <;> omega) fuel hfuel
  refine ⟨out, e1, fun p hp => ?_⟩
  obtain ⟨h1, h2⟩ := e2 p hp
  have h3 : (((out p).data.take (out p).n : List (δ × ℤ)) : Multiset (δ × ℤ)) = 0 := by
    rw [h2, Multiset.filter_eq_nil.2, Multiset.map_zero]
    intro r hr
    unfold collect at hr
    rw [Multiset.mem_sum] at hr
    obtain ⟨q, -, hr⟩ := hr
    obtain ⟨r', hr', rfl⟩ := List.mem_map.1 (Multiset.mem_coe.1 hr)
    have h4 := List.mem_of_mem_take hr'
    simp only [List.mem_singleton] at h4
    subst h4
    simp [hpow]
  have h5 := congrArg Multiset.card h3
  simp only [Multiset.coe_card, List.length_take, Multiset.card_zero] at h5
  omega

/-- C134: rows with foreign targets never reach, or displace anything on, the devices in the middle. -/
theorem C134_others (P : ℕ) (hP : 2 ≤ P) (z f : ℤ × δ) (fs : ℤ)
    (size : ℕ) (st : ℕ → CrystalData (ℤ × δ))
    (hlen : ∀ p < P, (st p).data.length = size) (hn : ∀ p < P, (st p).n ≤ size)
    (fuel : ℕ) (hfuel : Nat.clog 2 P + 1 ≤ fuel) :
    ∃ out, crystalRouterApi P z f fs size fuel st = some (.ok out) ∧
      ∀ p, 0 < p → p + 1 < P →
        (((out p).data.take (out p).n : List (δ × ℤ)) : Multiset (δ × ℤ)) =
        ((collect P (fun q => (st q).n) (fun q => (st q).data) (fun q r => (r, (q : ℤ)))).filter
          (fun r => r.1.1 = (p : ℤ))).map (fun r => (r.1.2, r.2)) := by
  classical
  obtain ⟨out, e1, e2⟩ := C134_outcome_partial P hP z f fs size st hlen hn fuel hfuel
  refine ⟨out, e1, fun p hp0 hp => ?_⟩
  rw [(e2 p (by omega)).2]
  congr 1
  refine Multiset.filter_congr (fun r _ => ?_)
  constructor
  · rintro ⟨h, -⟩
    omega
  · intro h
    exact ⟨by omega, .inl (by omega)⟩

end Verif.Comm
