import Verif.Adiabats.Model

/-!
# C40: sampling an adiabat and its minimum enthalpy
-/
namespace Phoebus.Adiabats
variable {K : Type*} [Field K] [LinearOrder K] [IsStrictOrderedRing K]

/-- **C40** The result is a lower bound of every sampled enthalpy and is one of them, or the cap; for any number of samples. -/
theorem minEnthalpy_spec (cap : K) (h : ℕ → K) (n : ℕ) :
    (∀ i, i < n → minEnthalpy cap h n ≤ h i) ∧ minEnthalpy cap h n ≤ cap ∧
    (minEnthalpy cap h n = cap ∨ ∃ i, i < n ∧ minEnthalpy cap h n = h i) := by
  induction n with
  | zero => exact ⟨fun i hi => absurd hi (by omega), le_rfl, Or.inl rfl⟩
  | succ n ih =>
    obtain ⟨h1, h2, h3⟩ := ih
    simp only [minEnthalpy]
    split_ifs with hc
    · refine ⟨fun i hi => ?_, hc.le.trans h2, Or.inr ⟨n, by omega, rfl⟩⟩
      rcases Nat.lt_or_ge i n with hlt | hge
      · exact hc.le.trans (h1 i hlt)
      · rw [show i = n by omega]
    · refine ⟨fun i hi => ?_, h2, ?_⟩
      · rcases Nat.lt_or_ge i n with hlt | hge
        · exact h1 i hlt
        · rw [show i = n by omega]; exact not_lt.1 hc
      · rcases h3 with h3 | ⟨i, hi, h3⟩
        · exact Or.inl h3
        · exact Or.inr ⟨i, by omega, h3⟩

/-- **C40** If the samples are below the cap, the result is exactly the minimum: the greatest lower bound of the samples. -/
theorem minEnthalpy_min (cap : K) (h : ℕ → K) (n : ℕ) (hn : 0 < n) (hc : ∃ i, i < n ∧ h i ≤ cap) (b : K) :
    b ≤ minEnthalpy cap h n ↔ ∀ i, i < n → b ≤ h i := by
  obtain ⟨h1, h2, h3⟩ := minEnthalpy_spec cap h n
  refine ⟨fun hb i hi => hb.trans (h1 i hi), fun hb => ?_⟩
  rcases h3 with h3 | ⟨i, hi, h3⟩
  · obtain ⟨i, hi, hci⟩ := hc
    rw [h3]; exact (hb i hi).trans hci
  · rw [h3]; exact hb i hi

/-- with every sample above the cap the result is the cap: it is then not attained. -/
theorem minEnthalpy_cap (cap : K) (h : ℕ → K) (n : ℕ) (hc : ∀ i, i < n → cap ≤ h i) : minEnthalpy cap h n = cap := by
  obtain ⟨_, h2, h3⟩ := minEnthalpy_spec cap h n
  rcases h3 with h3 | ⟨i, hi, h3⟩
  · exact h3
  · exact le_antisymm h2 (h3 ▸ hc i hi)

/-- **C40** The sampled quantity is the specific enthalpy: `rho h` is rest-mass plus internal energy density plus pressure. -/
theorem enthalpy_spec (P e : K → K → K) (rho T : K) (hr : rho ≠ 0) :
    rho * enthalpy P e rho T = rho + rho * e rho T + P rho T := by unfold enthalpy; field_simp

/-- positive pressure and energy make the minimum exceed one (the cap does). -/
theorem minEnthalpy_gt_one (cap : K) (hcap : 1 < cap) (P e : K → K → K) (rho T : ℕ → K) (n : ℕ)
    (hp : ∀ i, i < n → 0 < rho i ∧ 0 < P (rho i) (T i) ∧ 0 < e (rho i) (T i)) :
    1 < minEnthalpy cap (fun i => enthalpy P e (rho i) (T i)) n := by
  obtain ⟨_, _, h3⟩ := minEnthalpy_spec cap (fun i => enthalpy P e (rho i) (T i)) n
  rcases h3 with h3 | ⟨i, hi, h3⟩
  · rw [h3]; exact hcap
  · rw [h3]
    obtain ⟨a, b, c⟩ := hp i hi
    have := div_pos b a
    unfold enthalpy
    linarith

/-- **C40** The samples are equally spaced, start at the lower bound, stay inside the interval and are strictly increasing;
the upper bound itself is never sampled. -/
theorem sampleRho_spec (lo hi : K) (h : lo < hi) (n : ℕ) (hn : 0 < n) :
    sampleRho lo hi n 0 = lo ∧ (∀ i, sampleRho lo hi n (i + 1) - sampleRho lo hi n i = (hi - lo) / n) ∧
    (∀ i j, i < j → sampleRho lo hi n i < sampleRho lo hi n j) ∧
    (∀ i, i < n → lo ≤ sampleRho lo hi n i ∧ sampleRho lo hi n i < hi) ∧ sampleRho lo hi n n = hi := by
  have hn' : (0:K) < n := by exact_mod_cast hn
  have hd : 0 < (hi - lo) / n := div_pos (by linarith) hn'
  have hN : sampleRho lo hi n n = hi := by unfold sampleRho; field_simp; ring
  have hmono : ∀ i j, i < j → sampleRho lo hi n i < sampleRho lo hi n j := by
    intro i j hij
    unfold sampleRho
    have : (i:K) < j := by exact_mod_cast hij
    have := mul_lt_mul_of_pos_right this hd
    linarith
  refine ⟨by simp [sampleRho], fun i => ?_, hmono, fun i hi' => ⟨?_, ?_⟩, hN⟩
  · unfold sampleRho; push_cast; ring
  · unfold sampleRho
    have := mul_nonneg (Nat.cast_nonneg (α := K) i) hd.le
    linarith
  · exact (hmono i n hi').trans_eq hN

/-- the adjusted bounds keep their order as long as the lower adjustment does not overtake the upper bound. -/
theorem rhoBounds_order (adj l0 l1 : K) (ha : 0 ≤ adj) (ha1 : adj < 1) (h : l0 + adj * |l0| < l1) :
    l0 ≤ (rhoBounds adj l0 l1).1 ∧ (rhoBounds adj l0 l1).1 < (rhoBounds adj l0 l1).2 ∧ (rhoBounds adj l0 l1).2 ≤ l1 := by
  unfold rhoBounds
  have := mul_nonneg ha (abs_nonneg l0)
  refine ⟨by simp only; linarith, ?_, ?_⟩ <;> simp only <;> nlinarith

/-- otherwise they can cross: a narrow interval at large logarithmic density is turned inside out. -/
theorem rhoBounds_cross : ∃ l0 l1 : ℚ, l0 < l1 ∧ (rhoBounds (1/100) l0 l1).2 < (rhoBounds (1/100) l0 l1).1 :=
  ⟨10, 10 + 1/20, by norm_num, by norm_num [rhoBounds, abs_of_nonneg]⟩

example : minEnthalpy (10:ℚ) (fun i => if i = 2 then 3 else 5) 4 = 3 := by decide +kernel

end Phoebus.Adiabats
