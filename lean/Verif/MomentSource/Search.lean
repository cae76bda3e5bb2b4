import Verif.MomentSource.Props
import Verif.Closure.Props
import Verif.RootFind.Props

/-!
# C141: the temperature search of the one-dimensional source solver
-/
namespace Phoebus.MomentSource
open Geom Robust LinAlg Finset Closure RootFind
open Rel (PosDef)

/-! ### Model -/

/-- the re-bracketing loop, moments_source.cpp:366-380, with the tries left as fuel and `fac = rebracketing_fac`; the finder object, and with it the iteration count, is
the one of the first call. -/
noncomputable def retries (f : ℝ → ℝ) (T tol : ℝ) (maxIter : ℕ) : ℕ → ℝ → Outcome ℝ → Outcome ℝ
  | 0, _, o => o
  | k + 1, fac, .ret _ .failure n => retries f T tol maxIter k (fac * 10) (regulaFalsi f (0.1 / fac * T) (10 * fac * T) (tol * T) T true n maxIter)
  | k + 1, fac, .nan .failure n => retries f T tol maxIter k (fac * 10) (regulaFalsi f (0.1 / fac * T) (10 * fac * T) (tol * T) T true n maxIter)
  | _ + 1, _, o => o

/-- the temperature search, moments_source.cpp:356-380: `T` is the temperature of the cell. -/
noncomputable def search (f : ℝ → ℝ) (T tol : ℝ) (maxIter : ℕ) : Outcome ℝ :=
  retries f T tol maxIter 4 10 (regulaFalsi f (0.01 * T) (100 * T) (tol * T) T true 0 maxIter)

/-- gas and opacities of a cell as functions of temperature: internal energy per volume, absorption and scattering coefficients, thermal radiation energy.
(Data type: `eos` and `opacities` at the density and composition of the cell, moments_source.cpp:358-360, 408-416.) -/
structure Mat where
  ug : ℝ → ℝ
  kJ : ℝ → ℝ
  kS : ℝ → ℝ
  JBB : ℝ → ℝ
  alphaMax : ℝ

/-- the residual of the cell, moments_source.cpp:345-360: `dtau` is the time elapsed in the fluid frame. -/
noncomputable def Mat.resid (m : Mat) (ug0 J0 dtau : ℝ) : ℝ → ℝ := tResidual m.ug ug0 dtau m.alphaMax [⟨J0, m.kJ, m.JBB⟩]

/-- the increments of the first attempt, moments_source.cpp:408-424, at temperature `T1`: coefficients capped one by one. -/
noncomputable def Mat.update (m : Mat) (num : Bool) (G : ADM ℝ) (v : Vec) (Pi : Tens2) (E : ℝ) (F : Vec) (dt T1 : ℝ) : ℝ × Vec :=
  let kJ := min (m.kJ T1) m.alphaMax
  let kH := min (m.kS T1) m.alphaMax + kJ
  linearSourceUpdate num G v E F Pi (m.JBB T1) (G.alpha * dt * kJ) (G.alpha * dt * kH)

/-- the increments of the second attempt with the strategy `ignore_dJ`, moments_source.cpp:446-467: thermal energy at the old temperature `T`, coefficients at `T1`, not
capped. -/
noncomputable def Mat.retry (m : Mat) (num : Bool) (G : ADM ℝ) (v : Vec) (Pi : Tens2) (E : ℝ) (F : Vec) (dt T T1 : ℝ) : ℝ × Vec :=
  linearSourceUpdate num G v E F Pi (m.JBB T) (G.alpha * dt * m.kJ T1) (G.alpha * dt * (m.kS T1 + m.kJ T1))

/-! ### The search -/

/-- one call on a bracket around the temperature: a failure before the cap means that the residual has the same sign at both ends and at the guess. -/
theorem falsi_failure (f : ℝ → ℝ) (a b tol g : ℝ) (n0 N : ℕ) (ha : a ≤ g) (hb : g ≤ b) (n : ℕ)
    (h : (∃ x, regulaFalsi f a b tol g true n0 N = .ret x .failure n) ∨ regulaFalsi f a b tol g true n0 N = .nan .failure n) :
    n = N ∨ (n = n0 ∧ 0 < f a * f g ∧ 0 < f g * f b) := by
  rcases h with ⟨x, h⟩ | h
  · by_cases hc : checkBracket (refineBracket f g a b).2.2.1 (refineBracket f g a b).2.2.2 = true
    · left
      exact ((regulaFalsi_status f a b tol g true n0 N .failure n).2 x h hc).1 rfl
    · right
      have hp : (refineBracket f g a b).2.2.1 * (refineBracket f g a b).2.2.2 > 0 := by
        by_contra hh
        exact hc ((checkBracket_iff _ _).2 hh)
      have := (no_bracket f a b tol g n0 N).2 hp
      rw [this.2.1] at h
      simp only [Outcome.ret.injEq] at h
      refine ⟨h.2.2.symm, ?_⟩
      unfold refineBracket at hp
      rw [if_pos ⟨ha, hb⟩] at hp
      simp only at hp
      split_ifs at hp with h2
      · exact ⟨hp, h2⟩
      · exact absurd hp h2
  · left
    exact ((regulaFalsi_status f a b tol g true n0 N .failure n).1 h).1 rfl

/-- the attempt on the interval `[T/10^(j+1), 10^(j+1) T]`, with `n` iterations used before. -/
noncomputable def attempt (f : ℝ → ℝ) (T tol : ℝ) (N j n : ℕ) : Outcome ℝ := regulaFalsi f (0.1 / 10 ^ j * T) (10 * 10 ^ j * T) (tol * T) T true n N

theorem falsi_count (f : ℝ → ℝ) (a b tol g : ℝ) (n0 N : ℕ) (hn : n0 ≤ N) (n : ℕ)
    (h : (∃ x st, regulaFalsi f a b tol g true n0 N = .ret x st n) ∨ ∃ st, regulaFalsi f a b tol g true n0 N = .nan st n) : n0 ≤ n ∧ n ≤ N := by
  have hc : (regulaFalsi f a b tol g true n0 N).count = some n := by
    rcases h with ⟨x, st, h⟩ | ⟨st, h⟩ <;> rw [h] <;> rfl
  exact iterations_le_cap f a b tol g true n0 N n hn (Or.inr (Or.inl hc))

theorem search_eq (f : ℝ → ℝ) (T tol : ℝ) (N : ℕ) : search f T tol N = retries f T tol N 4 (10 ^ 1) (attempt f T tol N 1 0) := by
  unfold search attempt
  norm_num

theorem retries_attempt (f : ℝ → ℝ) (T tol : ℝ) (N : ℕ) : ∀ (k j : ℕ) (o : Outcome ℝ), 1 ≤ j → j + k ≤ 5 →
    (∃ i n, 1 ≤ i ∧ i ≤ 4 ∧ n ≤ N ∧ o = attempt f T tol N i n) →
    ∃ i n, 1 ≤ i ∧ i ≤ 4 ∧ n ≤ N ∧ retries f T tol N k (10 ^ j) o = attempt f T tol N i n := by
  intro k
  induction k with
  | zero => intro j o _ _ h; simpa only [retries] using h
  | succ k ih =>
    intro j o hj hk ho
    obtain ⟨i, n, hi, hi4, hn, e⟩ := ho
    have step : ∀ n', n' ≤ N → ∃ i n, 1 ≤ i ∧ i ≤ 4 ∧ n ≤ N ∧ retries f T tol N k (10 ^ j * 10) (attempt f T tol N j n') = attempt f T tol N i n := by
      intro n' hn'
      have := ih (j + 1) (attempt f T tol N j n') (by omega) (by omega) ⟨j, n', hj, by omega, hn', rfl⟩
      rwa [pow_succ] at this
    match ho' : o with
    | .ret x .failure n' =>
      rw [ho'] at *
      simp only [retries]
      exact step n' (falsi_count _ _ _ _ _ _ _ hn n' (Or.inl ⟨x, .failure, e.symm⟩)).2
    | .nan .failure n' =>
      rw [ho'] at *
      simp only [retries]
      exact step n' (falsi_count _ _ _ _ _ _ _ hn n' (Or.inr ⟨.failure, e.symm⟩)).2
    | .ret x .success n' => exact ⟨i, n, hi, hi4, hn, by rw [← e]; rfl⟩
    | .nan .success n' => exact ⟨i, n, hi, hi4, hn, by rw [← e]; rfl⟩
    | .abort => exact ⟨i, n, hi, hi4, hn, by rw [← e]; rfl⟩
    | .undef => exact ⟨i, n, hi, hi4, hn, by rw [← e]; rfl⟩

/-- a failure is that of the last attempt. -/
theorem retries_failure (f : ℝ → ℝ) (T tol : ℝ) (N : ℕ) : ∀ (k j : ℕ) (o R : Outcome ℝ), (∃ i n, n ≤ N ∧ o = attempt f T tol N i n) →
    retries f T tol N (k + 1) (10 ^ j) o = R → ((∃ x n, R = .ret x .failure n) ∨ ∃ n, R = .nan .failure n) →
    ∃ n, n ≤ N ∧ R = attempt f T tol N (j + k) n := by
  intro k
  induction k with
  | zero =>
    intro j o R ho h hR
    obtain ⟨i, n, hn, e⟩ := ho
    match ho' : o with
    | .ret x .failure n' =>
      rw [ho'] at *
      simp only [retries] at h
      exact ⟨n', (falsi_count _ _ _ _ _ _ _ hn n' (Or.inl ⟨x, .failure, e.symm⟩)).2, h.symm⟩
    | .nan .failure n' =>
      rw [ho'] at *
      simp only [retries] at h
      exact ⟨n', (falsi_count _ _ _ _ _ _ _ hn n' (Or.inr ⟨.failure, e.symm⟩)).2, h.symm⟩
    | .ret x .success n' => simp only [retries] at h; subst h; simp at hR
    | .nan .success n' => simp only [retries] at h; subst h; simp at hR
    | .abort => simp only [retries] at h; subst h; simp at hR
    | .undef => simp only [retries] at h; subst h; simp at hR
  | succ k ih =>
    intro j o R ho h hR
    obtain ⟨i, n, hn, e⟩ := ho
    have step : ∀ n', n' ≤ N → retries f T tol N (k + 1) (10 ^ j * 10) (attempt f T tol N j n') = R → ∃ n, n ≤ N ∧ R = attempt f T tol N (j + (k + 1)) n := by
      intro n' hn' hh
      rw [← pow_succ] at hh
      have := ih (j + 1) _ R ⟨j, n', hn', rfl⟩ hh hR
      rwa [show j + 1 + k = j + (k + 1) by omega] at this
    match ho' : o with
    | .ret x .failure n' =>
      rw [ho'] at *
      rw [retries] at h
      exact step n' (falsi_count _ _ _ _ _ _ _ hn n' (Or.inl ⟨x, .failure, e.symm⟩)).2 h
    | .nan .failure n' =>
      rw [ho'] at *
      rw [retries] at h
      exact step n' (falsi_count _ _ _ _ _ _ _ hn n' (Or.inr ⟨.failure, e.symm⟩)).2 h
    | .ret x .success n' => simp only [retries] at h; subst h; simp at hR
    | .nan .success n' => simp only [retries] at h; subst h; simp at hR
    | .abort => simp only [retries] at h; subst h; simp at hR
    | .undef => simp only [retries] at h; subst h; simp at hR

theorem attempt_range (T : ℝ) (hT : 0 < T) (i : ℕ) (h1 : 1 ≤ i) (h4 : i ≤ 4) :
    T / 100000 ≤ 0.1 / 10 ^ i * T ∧ 0.1 / 10 ^ i * T ≤ T ∧ T ≤ 10 * 10 ^ i * T ∧ 10 * 10 ^ i * T ≤ 100000 * T := by
  interval_cases i <;> refine ⟨?_, ?_, ?_, ?_⟩ <;> norm_num <;> linarith

/-- **C141 (soundness)**: a search that reports success with a number returns it within the tolerance of a root of the residual, in
`[T/100000, 100000 T]`; for every residual that is continuous at positive temperatures. -/
theorem search_success (f : ℝ → ℝ) (T tol : ℝ) (N : ℕ) (hT : 0 < T) (ht : 0 ≤ tol) (hf : ContinuousOn f (Set.Ioi 0)) (x : ℝ) (n : ℕ)
    (h : search f T tol N = .ret x .success n) :
    T / 100000 ≤ x ∧ x ≤ 100000 * T ∧ ∃ z, T / 100000 ≤ z ∧ z ≤ 100000 * T ∧ f z = 0 ∧ |x - z| ≤ tol * T := by
  rw [search_eq] at h
  obtain ⟨i, m, h1, h4, hm, e⟩ := retries_attempt f T tol N 4 1 (attempt f T tol N 1 0) le_rfl (by norm_num) ⟨1, 0, le_rfl, by norm_num, Nat.zero_le _, rfl⟩
  rw [h] at e
  obtain ⟨r1, r2, r3, r4⟩ := attempt_range T hT i h1 h4
  have hab : 0.1 / 10 ^ i * T ≤ 10 * 10 ^ i * T := by linarith
  have hin := regulaFalsi_in_interval f _ _ (tol * T) T true m N hab (by positivity) (fun _ => ⟨r2, r3⟩) x .success n e.symm
  obtain ⟨z, ⟨hz1, hz2⟩, hz, hx⟩ := regulaFalsi_success_near_root f _ _ (tol * T) T true m N hm hab (by positivity)
    (hf.mono fun y hy => lt_of_lt_of_le (by positivity) hy.1) x n e.symm
  exact ⟨by linarith [hin.1], by linarith [hin.2], z, by linarith, by linarith, hz, hx⟩

/-- **C141 (what a failure means)**: the iterations are used up, or the residual has the same sign at `T/100000`, `T` and `100000 T`. -/
theorem search_failure (f : ℝ → ℝ) (T tol : ℝ) (N : ℕ) (hT : 0 < T) (n : ℕ)
    (h : (∃ x, search f T tol N = .ret x .failure n) ∨ search f T tol N = .nan .failure n) :
    n = N ∨ (0 < f (T / 100000) * f T ∧ 0 < f T * f (100000 * T)) := by
  obtain ⟨m, hm, e⟩ := retries_failure f T tol N 3 1 (attempt f T tol N 1 0) (search f T tol N) ⟨1, 0, Nat.zero_le _, rfl⟩ (search_eq f T tol N).symm
    (by rcases h with ⟨x, h⟩ | h
        · exact Or.inl ⟨x, n, h⟩
        · exact Or.inr ⟨n, h⟩)
  rw [e] at h
  obtain ⟨r1, r2, r3, r4⟩ := attempt_range T hT 4 (by norm_num) le_rfl
  rcases falsi_failure f _ _ (tol * T) T m N r2 r3 n h with h | ⟨-, h1, h2⟩
  · exact Or.inl h
  · right
    norm_num at h1 h2
    have e1 : T / 100000 = 1 / 100000 * T := by ring
    exact ⟨by rw [e1]; exact h1, h2⟩

/-- **C141 (retries after the cap)**: if the first attempt uses up the iterations, so that it fails, all four retries fail whatever their intervals are, and the search
fails with nothing gained. -/
theorem search_exhausted (f : ℝ → ℝ) (T tol : ℝ) (N : ℕ) (x : ℝ) (h : regulaFalsi f (0.01 * T) (100 * T) (tol * T) T true 0 N = .ret x .failure N) :
    ∃ y, search f T tol N = .ret y .failure N := by
  have key : ∀ (k : ℕ) (fac x : ℝ), ∃ y, retries f T tol N k fac (.ret x .failure N) = .ret y .failure N := by
    intro k
    induction k with
    | zero => intro fac x; exact ⟨x, rfl⟩
    | succ k ih =>
      intro fac x
      obtain ⟨y, hy⟩ := (exhausted_object_always_fails f (0.1 / fac * T) (10 * fac * T) (tol * T) T N).1
      rw [retries, hy]
      exact ih _ y
  unfold search
  rw [h]
  exact key 4 10 x

/-- **C141 (the first retry)**: the first retry is the first attempt again: on the same interval it fails again if that one had no sign change. -/
theorem first_retry_repeats (f : ℝ → ℝ) (T tol : ℝ) (N : ℕ) (x : ℝ) (h : regulaFalsi f (0.01 * T) (100 * T) (tol * T) T true 0 N = .ret x .failure 0) (k : ℕ) :
    retries f T tol N (k + 1) 10 (.ret x .failure 0) = retries f T tol N k (10 * 10) (.ret x .failure 0) := by
  rw [retries]
  have : regulaFalsi f (0.1 / 10 * T) (10 * 10 * T) (tol * T) T true 0 N = .ret x .failure 0 := by rw [← h]; norm_num
  rw [this]

/-! ### The energy balance of the cell -/

/-- the residual at `T`, written out: energy of gas and radiation after the step minus before, relative to the total. -/
theorem resid_eq (m : Mat) (ug0 J0 dtau T : ℝ) :
    m.resid ug0 J0 dtau T = ((m.ug T - ug0) + (jNew dtau m.alphaMax T ⟨J0, m.kJ, m.JBB⟩ - J0)) / (ug0 + J0) := by
  simp [Mat.resid, tResidual]

theorem resid_continuous (m : Mat) (ug0 J0 dtau : ℝ) (hd : 0 ≤ dtau) (ha : 0 ≤ m.alphaMax) (hk : ∀ T, 0 < T → 0 ≤ m.kJ T)
    (hu : ContinuousOn m.ug (Set.Ioi 0)) (hkc : ContinuousOn m.kJ (Set.Ioi 0)) (hB : ContinuousOn m.JBB (Set.Ioi 0)) :
    ContinuousOn (m.resid ug0 J0 dtau) (Set.Ioi 0) := by
  have e : m.resid ug0 J0 dtau = fun T => ((m.ug T - ug0) + ((J0 + dtau * min (m.kJ T) m.alphaMax * m.JBB T) / (1 + dtau * min (m.kJ T) m.alphaMax) - J0)) / (ug0 + J0) :=
    funext fun T => by rw [resid_eq]; rfl
  rw [e]
  have hm : ContinuousOn (fun T => min (m.kJ T) m.alphaMax) (Set.Ioi 0) := hkc.inf continuousOn_const
  refine ContinuousOn.div_const (ContinuousOn.add (hu.sub continuousOn_const) (ContinuousOn.sub (ContinuousOn.div ?_ ?_ ?_) continuousOn_const)) _
  · exact continuousOn_const.add ((continuousOn_const.mul hm).mul hB)
  · exact continuousOn_const.add (continuousOn_const.mul hm)
  · intro T hT
    have : 0 ≤ dtau * min (m.kJ T) m.alphaMax := mul_nonneg hd (le_min (hk T hT) ha)
    positivity

/-- with an absorption coefficient that does not depend on temperature the residual increases. -/
theorem resid_strictMono (m : Mat) (ug0 J0 dtau : ℝ) (hd : 0 ≤ dtau) (ha : 0 ≤ m.alphaMax) (k : ℝ) (hk0 : 0 ≤ k) (hk : ∀ T, 0 < T → m.kJ T = k)
    (hu : StrictMonoOn m.ug (Set.Ioi 0)) (hB : MonotoneOn m.JBB (Set.Ioi 0)) (hpos : 0 < ug0 + J0) : StrictMonoOn (m.resid ug0 J0 dtau) (Set.Ioi 0) := by
  intro T hT T' hT' h
  rw [resid_eq, resid_eq]
  refine div_lt_div_of_pos_right ?_ hpos
  have h1 := hu hT hT' h
  have h2 := hB hT hT' h.le
  have h3 : jNew dtau m.alphaMax T ⟨J0, m.kJ, m.JBB⟩ ≤ jNew dtau m.alphaMax T' ⟨J0, m.kJ, m.JBB⟩ := by
    simp only [jNew, hk T hT, hk T' hT']
    have h0 : 0 ≤ dtau * min k m.alphaMax := mul_nonneg hd (le_min hk0 ha)
    refine div_le_div_of_nonneg_right ?_ (by linarith)
    nlinarith
  linarith

/-- **C141**: a search that succeeds returns, within the tolerance, *the* temperature at which gas and radiation together have the energy they had: gas at that
temperature, radiation relaxed towards it for the time step. For constant absorption; without that assumption such a temperature exists within the tolerance but need
not be the only one. -/
theorem search_balance (m : Mat) (ug0 J0 dtau T tol : ℝ) (N : ℕ) (hT : 0 < T) (ht : 0 ≤ tol) (hd : 0 ≤ dtau) (ha : 0 ≤ m.alphaMax) (hpos : 0 < ug0 + J0)
    (hk : ∀ T, 0 < T → 0 ≤ m.kJ T) (hu : ContinuousOn m.ug (Set.Ioi 0)) (hkc : ContinuousOn m.kJ (Set.Ioi 0)) (hB : ContinuousOn m.JBB (Set.Ioi 0)) (x : ℝ) (n : ℕ)
    (h : search (m.resid ug0 J0 dtau) T tol N = .ret x .success n) :
    0 < x ∧ ∃ z, 0 < z ∧ |x - z| ≤ tol * T ∧ m.ug z + jNew dtau m.alphaMax z ⟨J0, m.kJ, m.JBB⟩ = ug0 + J0 ∧
      (StrictMonoOn m.ug (Set.Ioi 0) → MonotoneOn m.JBB (Set.Ioi 0) → (∃ k, ∀ T, 0 < T → m.kJ T = k) →
        ∀ w, 0 < w → m.ug w + jNew dtau m.alphaMax w ⟨J0, m.kJ, m.JBB⟩ = ug0 + J0 → w = z) := by
  obtain ⟨h1, -, z, hz1, -, hz, hx⟩ := search_success _ T tol N hT ht (resid_continuous m ug0 J0 dtau hd ha hk hu hkc hB) x n h
  have hz0 : 0 < z := lt_of_lt_of_le (by positivity) hz1
  have key : ∀ w, m.ug w + jNew dtau m.alphaMax w ⟨J0, m.kJ, m.JBB⟩ = ug0 + J0 ↔ m.resid ug0 J0 dtau w = 0 := by
    intro w
    rw [resid_eq, div_eq_zero_iff, or_iff_left hpos.ne']
    constructor <;> intro h <;> linarith
  refine ⟨lt_of_lt_of_le (by positivity) h1, z, hz0, hx, (key z).2 hz, fun hs hm hc w hw hww => ?_⟩
  obtain ⟨k, hc⟩ := hc
  have := resid_strictMono m ug0 J0 dtau hd ha k (by rw [← hc 1 one_pos]; exact hk 1 one_pos) hc hs hm hpos
  exact this.injOn hw hz0 (by rw [hz]; exact (key w).1 hww)

/-- **C141 (completeness)**: if there is such a temperature in `[T/100000, 100000 T]`, a search that fails has used up its iterations. -/
theorem search_finds (m : Mat) (ug0 J0 dtau T tol : ℝ) (N : ℕ) (hT : 0 < T) (hd : 0 ≤ dtau) (ha : 0 ≤ m.alphaMax) (hpos : 0 < ug0 + J0)
    (k : ℝ) (hk0 : 0 ≤ k) (hk : ∀ T, 0 < T → m.kJ T = k) (hu : StrictMonoOn m.ug (Set.Ioi 0)) (hB : MonotoneOn m.JBB (Set.Ioi 0)) (z : ℝ)
    (hz1 : T / 100000 ≤ z) (hz2 : z ≤ 100000 * T) (hz : m.ug z + jNew dtau m.alphaMax z ⟨J0, m.kJ, m.JBB⟩ = ug0 + J0) (n : ℕ)
    (h : (∃ x, search (m.resid ug0 J0 dtau) T tol N = .ret x .failure n) ∨ search (m.resid ug0 J0 dtau) T tol N = .nan .failure n) : n = N := by
  rcases search_failure _ T tol N hT n h with h | ⟨h1, h2⟩
  · exact h
  · exfalso
    have hm := (resid_strictMono m ug0 J0 dtau hd ha k hk0 hk hu hB hpos).monotoneOn
    have hr : m.resid ug0 J0 dtau z = 0 := by rw [resid_eq, div_eq_zero_iff]; left; linarith
    have p1 : (T / 100000) ∈ Set.Ioi (0 : ℝ) := by simp; exact hT
    have p2 : z ∈ Set.Ioi (0 : ℝ) := lt_of_lt_of_le (by simpa using hT) hz1
    have p3 : (100000 * T) ∈ Set.Ioi (0 : ℝ) := by simp; exact hT
    have a1 := hm p1 p2 hz1
    have a2 := hm p2 p3 hz2
    rw [hr] at a1 a2
    have b1 : m.resid ug0 J0 dtau (T / 100000) < 0 := lt_of_le_of_ne a1 fun e => by rw [e] at h1; simp at h1
    have b2 : m.resid ug0 J0 dtau T < 0 := by by_contra hh; nlinarith
    nlinarith

/-! ### The update at rest -/

theorem W_rest (G : ADM ℝ) : W G 0 = 1 := by
  have : v2 G 0 = 0 := by simp [v2, cc]; norm_num
  simp [W, this]

/-- the linear update in a gas at rest, for any pressure tensor: energy relaxes towards the thermal value, momentum is damped. -/
theorem rest_update (num : Bool) (G : ADM ℝ) (Pi : Tens2) (E : ℝ) (F : Vec) (JBB tauJ tauH : ℝ) (hJ : 0 ≤ tauJ) (hH : 0 ≤ tauH) :
    linearSourceUpdate num G 0 E F Pi JBB tauJ tauH = (tauJ * (JBB - E) / (1 + tauJ), fun i => -(tauH / (1 + tauH)) * F i) := by
  have hl : ∀ i, lower G 0 i = 0 := by intro i; simp [lower]
  have hp : vvPi G 0 Pi = 0 := by simp [vvPi, hl]
  have hc : ∀ i, covVPi G 0 Pi i = 0 := by intro i; simp [covVPi, conVPi, lower]
  have j1 : (1 + tauJ) ≠ 0 := by positivity
  have h1 : (1 + tauH) ≠ 0 := by positivity
  have hx : solve2 (lsuA num G 0 Pi tauJ tauH) (lsuB num G 0 E F JBB tauJ) = ![(E + tauJ * JBB) / (1 + tauJ), 0] := by
    refine solve2_unique _ _ _ ?_ ?_ ?_
    · rw [Matrix.det_fin_two]
      cases num <;> simp [lsuA, W2, W_rest, hp]
      · have : ((4 - 1) / 3 + tauJ) * (2 + tauH - 1) - (2 + tauH) * ((4 - 1) / 3 + tauJ - 1 - tauJ) = (1 + tauJ) * (1 + tauH) := by ring
        rw [this]; positivity
      · have : (1 + tauJ) * (2 + tauH - 1) - ((4 - 1) / 3 + tauJ - 1 - tauJ) = (1 + tauJ) * (1 + tauH) := by ring
        rw [this]; positivity
    · cases num <;> simp [lsuA, lsuB, W2, W_rest, hp] <;> field_simp
      ring
    · cases num <;> simp [lsuA, lsuB, W2, W_rest, hp, cc] <;> left <;> norm_num
  unfold linearSourceUpdate
  refine Prod.ext ?_ (funext fun i => ?_)
  · simp only [hx]
    cases num <;> simp [W_rest, W2, hp] <;> field_simp <;> ring
  · simp only [hx]
    simp [W_rest, hl, hc]
    field_simp
    ring

/-- **C141 (at rest)**: in a gas at rest the energy that the update leaves to the gas is that of the temperature found by the search, up to the residual of the search;
so with an exact root the gas ends at the temperature at which emission and absorption were evaluated. -/
theorem rest_gas_energy (m : Mat) (num : Bool) (G : ADM ℝ) (Pi : Tens2) (J0 ug0 dt T1 : ℝ) (F : Vec) (ha : 0 ≤ G.alpha) (hdt : 0 ≤ dt) (hpos : ug0 + J0 ≠ 0)
    (hk : 0 ≤ m.kJ T1) (hs : 0 ≤ m.kS T1) (hm : 0 ≤ m.alphaMax) :
    ug0 - (m.update num G 0 Pi J0 F dt T1).1 = m.ug T1 - m.resid ug0 J0 (G.alpha * dt / W G 0) T1 * (ug0 + J0) ∧
    (m.resid ug0 J0 (G.alpha * dt / W G 0) T1 = 0 → ug0 - (m.update num G 0 Pi J0 F dt T1).1 = m.ug T1) := by
  have h1 : 0 ≤ G.alpha * dt * min (m.kJ T1) m.alphaMax := mul_nonneg (mul_nonneg ha hdt) (le_min hk hm)
  have h2 : 0 ≤ G.alpha * dt * (min (m.kS T1) m.alphaMax + min (m.kJ T1) m.alphaMax) :=
    mul_nonneg (mul_nonneg ha hdt) (add_nonneg (le_min hs hm) (le_min hk hm))
  have key : ug0 - (m.update num G 0 Pi J0 F dt T1).1 = m.ug T1 - m.resid ug0 J0 (G.alpha * dt / W G 0) T1 * (ug0 + J0) := by
    rw [resid_eq, div_mul_cancel₀ _ hpos]
    simp only [Mat.update, rest_update num G Pi J0 F _ _ _ h1 h2, jNew, W_rest, div_one]
    have : 1 + G.alpha * dt * min (m.kJ T1) m.alphaMax ≠ 0 := by positivity
    field_simp
    ring
  exact ⟨key, fun h => by rw [key, h]; ring⟩

/-- material of the witness: unit heat capacity and absorption, no scattering. -/
noncomputable def wMat : Mat := ⟨fun T => T, fun _ => 1, fun _ => 0, fun T => 2 * T, 1⟩

/-- **C141 fails in a moving gas**: with velocity 3/5, radiation isotropic in the frame of the gas (`J = 1`) and an exact root `T1 = 1` of the residual, the update leaves
the rest-frame energy `19/13`, while the search assumed `13/9`: the gas does not end at the temperature found. -/
theorem moving_gas_mismatch : ∃ (G : ADM ℝ) (v : Vec), G.Valid ∧ PosDef G ∧ Slow G v ∧ W G v = 5 / 4 ∧
    wMat.resid (13 / 9) 1 (G.alpha * 1 / W G v) 1 = 0 ∧ jNew (G.alpha * 1 / W G v) wMat.alphaMax 1 ⟨1, wMat.kJ, wMat.JBB⟩ = 13 / 9 ∧
    (con2primRaw 0 false G v 0 ((prim2con false G v 0 1 0).1 + (wMat.update false G v 0 (prim2con false G v 0 1 0).1 (prim2con false G v 0 1 0).2 1 1).1)
      (fun i => (prim2con false G v 0 1 0).2 i + (wMat.update false G v 0 (prim2con false G v 0 1 0).1 (prim2con false G v 0 1 0).2 1 1).2 i)).1 = 19 / 13 := by
  refine ⟨⟨1, fun _ => 0, fun i j => if i = j then 1 else 0, fun i j => if i = j then 1 else 0⟩, ![3 / 5, 0, 0], ?_⟩
  set G : ADM ℝ := ⟨1, fun _ => 0, fun i j => if i = j then 1 else 0, fun i j => if i = j then 1 else 0⟩ with hG
  set v : Vec := ![3 / 5, 0, 0] with hv
  have hlow : ∀ i, lower G v i = v i := by intro i; simp [lower, hG]
  have hW : W G v = 5 / 4 := by
    have h1 : v2 G v = 9 / 25 := by
      simp only [v2, cc, hlow, Fin.sum_univ_three]; simp [hv]; norm_num
    unfold W
    rw [h1, show (1:ℝ) - 9 / 25 = (4 / 5) ^ 2 by norm_num, Real.sqrt_sq (by norm_num)]; norm_num
  have hGv : G.Valid := by
    refine ⟨by simp [hG], ?_, ?_, ?_⟩
    · intro i j; simp [hG, eq_comm]
    · intro i j; simp [hG, eq_comm]
    · intro i j; simp [hG]
  have hs : Slow G v := by simp [Slow, hG, hv, ADM.dot3, Fin.sum_univ_three]; norm_num
  refine ⟨hGv, ?_, hs, hW, ?_, ?_, ?_⟩
  · intro v; simp [hG, ADM.dot3, Fin.sum_univ_three]; nlinarith [sq_nonneg (v 0), sq_nonneg (v 1), sq_nonneg (v 2)]
  · rw [resid_eq, hW]; norm_num [jNew, wMat, hG]
  · rw [hW]; norm_num [jNew, wMat, hG]
  · have hp : vvPi G v 0 = 0 := vvPi_zero G v
    have hc : ∀ i, covVPi G v 0 i = 0 := by intro i; simp [covVPi, conVPi, lower]
    have hE : (prim2con false G v 0 1 0).1 = 7 / 4 := by simp [prim2con, hp, W2, hW, cc]; norm_num
    have hF : ∀ i, (prim2con false G v 0 1 0).2 i = 25 / 12 * v i := by
      intro i; simp [prim2con, W2, hW, cc, hc, hlow]; left; norm_num
    have hvF : cc v (prim2con false G v 0 1 0).2 = 3 / 4 := by
      simp only [cc, hF, Fin.sum_univ_three]; simp [hv]; norm_num
    have hx : solve2 (lsuA false G v 0 1 1) (lsuB false G v (7 / 4) (prim2con false G v 0 1 0).2 2 1) = ![19 / 13, -1 / 26] := by
      refine solve2_unique _ _ _ ?_ ?_ ?_
      · rw [Matrix.det_fin_two]; simp [lsuA, hp, W2, hW]; norm_num
      · simp [lsuA, lsuB, hp, W2, hW]; norm_num
      · simp [lsuA, lsuB, hp, W2, hW, hvF]; norm_num
    have hu : wMat.update false G v 0 (prim2con false G v 0 1 0).1 (prim2con false G v 0 1 0).2 1 1 =
        linearSourceUpdate false G v (7 / 4) (prim2con false G v 0 1 0).2 0 2 1 1 := by
      rw [Mat.update, hE]; norm_num [wMat, hG]
    rw [hu]
    simp only [linearSourceUpdate, hx]
    have v0 : v 0 = 3 / 5 := rfl
    have v1 : v 1 = 0 := rfl
    have v2' : v 2 = 0 := rfl
    simp [con2primRaw, hp, hE, lam, W2, hW, hlow, hc, hF, cc, Fin.sum_univ_three, v0, v1, v2', ratio]
    norm_num

/-- residual of the example: heat capacity and absorption one, gas energy `u`, radiation energy 2. -/
theorem ex_resid (u : ℝ) (T : ℝ) : wMat.resid u 2 1 T = (2 * T - u - 1) / (u + 2) := by
  rw [resid_eq]
  norm_num [jNew, wMat]
  ring

/-- the hypotheses are met: a cell at temperature 1 with gas energy 3 and radiation energy 2 ends at temperature 2, found in one iteration; with a cap of one iteration the
same search fails; with gas energy `10^7` the temperature sought is outside all intervals and the search fails at once. -/
theorem ex_search : search (wMat.resid 3 2 1) 1 (1 / 100) 50 = .ret 2 .success 1 ∧
    (∃ y, search (wMat.resid 3 2 1) 1 (1 / 100) 1 = .ret y .failure 1) ∧ search (wMat.resid 10000000 2 1) 1 (1 / 100) 50 = .ret 1 .failure 0 ∧
    wMat.ug 2 + jNew 1 wMat.alphaMax 2 ⟨2, wMat.kJ, wMat.JBB⟩ = 3 + 2 ∧ StrictMonoOn wMat.ug (Set.Ioi 0) ∧ MonotoneOn wMat.JBB (Set.Ioi 0) := by
  have e : wMat.resid 3 2 1 = fun T => (2 * T - 4) / 5 := funext fun T => by rw [ex_resid]; norm_num; ring
  have e' : wMat.resid 10000000 2 1 = fun T => (2 * T - 10000001) / 10000002 := funext fun T => by rw [ex_resid]; norm_num; ring
  have step : ∀ N, regulaFalsi (fun T : ℝ => (2 * T - 4) / 5) (0.01 * 1) (100 * 1) (1 / 100 * 1) 1 true 0 (N + 1) = .ret 2 (finalStatus 1 (N + 1)) 1 := by
    intro N
    have hr : refineBracket (fun T : ℝ => (2 * T - 4) / 5) 1 (0.01 * 1) (100 * 1) = (1, 100, -2 / 5, 196 / 5) := by norm_num [refineBracket]
    have hl : falsiLoop (fun T : ℝ => (2 * T - 4) / 5) 1 (1 / 100) (N + 1) 1 100 (-2 / 5) (196 / 5) 0 0 = (some (2, 2), 1) := by
      rw [falsiLoop, if_pos (by norm_num), if_neg (by norm_num)]
      norm_num
      cases N with
      | zero => simp [falsiLoop]
      | succ N => rw [falsiLoop, if_neg (by norm_num)]; simp
    unfold regulaFalsi
    simp only [hr]
    have hc : checkBracket (-2 / 5 : ℝ) (196 / 5) = true := (checkBracket_iff _ _).2 (by norm_num)
    have hs : signOf (-2 / 5 : ℝ) = 1 := by norm_num [signOf]
    simp only [hc, hs, mul_one, Nat.sub_zero, hl]
    simp only [Bool.not_true, Bool.false_eq_true, if_false, Nat.zero_add]
    norm_num
  refine ⟨?_, ?_, ?_, ?_, ?_, ?_⟩
  · rw [e, search, step 49]; simp [finalStatus, retries]
  · refine search_exhausted _ _ _ _ 2 ?_
    rw [e, step 0]; simp [finalStatus]
  · rw [e']
    have att : ∀ a b : ℝ, a ≤ 1 → 1 ≤ b → b ≤ 100000 → regulaFalsi (fun T : ℝ => (2 * T - 10000001) / 10000002) a b (1 / 100 * 1) 1 true 0 50 = .ret 1 .failure 0 := by
      intro a b ha h1 hb
      have fa : (2 * a - 10000001) / 10000002 < 0 := by apply div_neg_of_neg_of_pos <;> linarith
      have fb : (2 * b - 10000001) / 10000002 < 0 := by apply div_neg_of_neg_of_pos <;> linarith
      have f1 : ((2 : ℝ) * 1 - 10000001) / 10000002 < 0 := by norm_num
      refine ((no_bracket _ a b (1 / 100 * 1) 1 0 50).2 ?_).2.1
      unfold refineBracket
      rw [if_pos ⟨ha, h1⟩]
      simp only
      rw [if_pos (mul_pos_of_neg_of_neg f1 fb)]
      exact mul_pos_of_neg_of_neg fa f1
    rw [search, att _ _ (by norm_num) (by norm_num) (by norm_num)]
    simp only [retries]
    rw [att _ _ (by norm_num) (by norm_num) (by norm_num)]
    simp only [retries]
    rw [att _ _ (by norm_num) (by norm_num) (by norm_num)]
    simp only [retries]
    rw [att _ _ (by norm_num) (by norm_num) (by norm_num)]
    simp only [retries]
    rw [att _ _ (by norm_num) (by norm_num) (by norm_num)]
  · norm_num [jNew, wMat]
  · intro a _ b _ h; exact h
  · intro a _ b _ h; simp only [wMat]; linarith

/-! ### Ceilings of the optical depths and the second attempt -/

/-- **C141 (ceiling)**: with the ceiling of the code, `alpha_max = tau_max / (alpha dt)` (moments_source.cpp:319-323), the first attempt uses the optical depth
`min (alpha dt kappa) tau_max` for absorption and adds the scattering one with a ceiling of its own, so that the sum is at most `2 tau_max`. At rest the energy therefore
moves at most the fraction `tau_max / (1 + tau_max)` of the way to the thermal value, the momentum keeps at least `1 / (1 + 2 tau_max)` of itself. -/
theorem update_ceiling (m : Mat) (num : Bool) (G : ADM ℝ) (v : Vec) (Pi : Tens2) (E : ℝ) (F : Vec) (dt T1 tauMax : ℝ) (ha : 0 < G.alpha) (hdt : 0 < dt)
    (hm : m.alphaMax = tauMax / (G.alpha * dt)) :
    m.update num G v Pi E F dt T1 = linearSourceUpdate num G v E F Pi (m.JBB T1) (min (G.alpha * dt * m.kJ T1) tauMax)
      (min (G.alpha * dt * m.kS T1) tauMax + min (G.alpha * dt * m.kJ T1) tauMax) := by
  have h0 : 0 < G.alpha * dt := mul_pos ha hdt
  have e : ∀ k, G.alpha * dt * min k m.alphaMax = min (G.alpha * dt * k) tauMax := by
    intro k
    rw [hm, mul_min_of_nonneg _ _ h0.le, mul_div_cancel₀ _ h0.ne']
  simp only [Mat.update, mul_add, e]

/-- at rest the first attempt moves the energy at most the fraction `tau_max / (1 + tau_max)` of the way to the thermal value, and the momentum keeps at least
`1 / (1 + 2 tau_max)` of itself. -/
theorem update_ceiling_rest (m : Mat) (num : Bool) (G : ADM ℝ) (Pi : Tens2) (E : ℝ) (F : Vec) (dt T1 tauMax : ℝ) (ha : 0 < G.alpha) (hdt : 0 < dt)
    (hm : m.alphaMax = tauMax / (G.alpha * dt)) (ht : 0 ≤ tauMax) (hk : 0 ≤ m.kJ T1) (hs : 0 ≤ m.kS T1) :
    |(m.update num G 0 Pi E F dt T1).1| ≤ tauMax / (1 + tauMax) * |m.JBB T1 - E| ∧
    ∀ i, |F i| / (1 + 2 * tauMax) ≤ |F i + (m.update num G 0 Pi E F dt T1).2 i| ∧ |F i + (m.update num G 0 Pi E F dt T1).2 i| ≤ |F i| := by
  have h0 : 0 < G.alpha * dt := mul_pos ha hdt
  rw [update_ceiling m num G 0 Pi E F dt T1 tauMax ha hdt hm]
  set a := min (G.alpha * dt * m.kJ T1) tauMax with hae
  set b := min (G.alpha * dt * m.kS T1) tauMax with hbe
  have a0 : 0 ≤ a := le_min (mul_nonneg h0.le hk) ht
  have b0 : 0 ≤ b := le_min (mul_nonneg h0.le hs) ht
  have a1 : a ≤ tauMax := min_le_right _ _
  have b1 : b ≤ tauMax := min_le_right _ _
  rw [rest_update num G Pi E F _ a (b + a) a0 (by linarith)]
  refine ⟨?_, fun i => ?_⟩
  · have e : a * (m.JBB T1 - E) / (1 + a) = a / (1 + a) * (m.JBB T1 - E) := by ring
    rw [e, abs_mul, abs_of_nonneg (div_nonneg a0 (by linarith))]
    refine mul_le_mul_of_nonneg_right ?_ (abs_nonneg _)
    rw [div_le_div_iff₀ (by linarith) (by linarith)]
    nlinarith
  · have e : F i + -((b + a) / (1 + (b + a))) * F i = (1 / (1 + (b + a))) * F i := by
      have : 1 + (b + a) ≠ 0 := by positivity
      field_simp; ring
    have hp : 0 ≤ 1 / (1 + (b + a)) := by positivity
    simp only [e, abs_mul, abs_of_nonneg hp]
    constructor
    · rw [div_eq_inv_mul, ← one_div]
      exact mul_le_mul_of_nonneg_right (one_div_le_one_div_of_le (by positivity) (by linarith)) (abs_nonneg _)
    · have : 1 / (1 + (b + a)) ≤ 1 := by rw [div_le_one (by positivity)]; linarith
      nlinarith [abs_nonneg (F i)]

/-- **C141 (second attempt)**: at rest the second attempt of `ignore_dJ` relaxes the energy towards the thermal value at the old temperature `T`, with the full, uncapped
optical depths of the coefficients at the temperature `T1` returned by the failed search. -/
theorem retry_rest (m : Mat) (num : Bool) (G : ADM ℝ) (Pi : Tens2) (E : ℝ) (F : Vec) (dt T T1 : ℝ) (ha : 0 ≤ G.alpha) (hdt : 0 ≤ dt) (hk : 0 ≤ m.kJ T1) (hs : 0 ≤ m.kS T1) :
    m.retry num G 0 Pi E F dt T T1 = (G.alpha * dt * m.kJ T1 * (m.JBB T - E) / (1 + G.alpha * dt * m.kJ T1),
      fun i => -(G.alpha * dt * (m.kS T1 + m.kJ T1) / (1 + G.alpha * dt * (m.kS T1 + m.kJ T1))) * F i) :=
  rest_update num G Pi E F _ _ _ (mul_nonneg (mul_nonneg ha hdt) hk) (mul_nonneg (mul_nonneg ha hdt) (add_nonneg hs hk))

/-- **C141 fails for the second attempt**: the strategy named "ignore dJ" does exchange energy, and more than the ceiling allows the first attempt: in a gas at rest
with `tau_max = 1`, optical depth 9 and thermal energy 2 against 1, nine tenths of the difference against one half. -/
theorem retry_exceeds_ceiling : ∃ (m : Mat) (G : ADM ℝ) (T : ℝ), G.Valid ∧ PosDef G ∧ m.alphaMax = 1 / (G.alpha * 1) ∧
    (m.update false G 0 0 1 0 1 T).1 = 1 / 2 ∧ (m.retry false G 0 0 1 0 1 T T).1 = 9 / 10 := by
  set G : ADM ℝ := ⟨1, fun _ => 0, fun i j => if i = j then 1 else 0, fun i j => if i = j then 1 else 0⟩ with hG
  refine ⟨⟨fun T => T, fun _ => 9, fun _ => 0, fun T => 2 * T, 1⟩, G, 1, ?_, ?_, ?_, ?_, ?_⟩
  · refine ⟨by simp [hG], ?_, ?_, ?_⟩
    · intro i j; simp [hG, eq_comm]
    · intro i j; simp [hG, eq_comm]
    · intro i j; simp [hG]
  · intro v; simp [hG, ADM.dot3, Fin.sum_univ_three]; nlinarith [sq_nonneg (v 0), sq_nonneg (v 1), sq_nonneg (v 2)]
  · simp [hG]
  · rw [update_ceiling _ false G 0 0 1 0 1 1 1 (by simp [hG]) one_pos (by simp [hG]), rest_update _ _ _ _ _ _ _ _ (by simp [hG]) (by simp [hG])]
    norm_num [hG]
  · rw [retry_rest _ false G 0 1 0 1 1 1 (by simp [hG]) zero_le_one (by norm_num) (by norm_num)]
    norm_num [hG]

/-! ### Absorption that depends on temperature -/

/-- **C141** if the absorption does not decrease with temperature, the balance is still unique among the temperatures at which the gas would not take up radiation (thermal energy density at least that of the radiation). -/
theorem balance_unique_hot (m : Mat) (ug0 J0 dtau : ℝ) (hd : 0 ≤ dtau) (ha : 0 ≤ m.alphaMax) (hk0 : ∀ T, 0 < T → 0 ≤ m.kJ T) (hk : MonotoneOn m.kJ (Set.Ioi 0)) (hu : StrictMonoOn m.ug (Set.Ioi 0))
    (hB : MonotoneOn m.JBB (Set.Ioi 0)) {w z : ℝ} (hw : 0 < w) (hz : 0 < z) (hw1 : J0 ≤ m.JBB w) (hz1 : J0 ≤ m.JBB z) (ew : m.ug w + jNew dtau m.alphaMax w ⟨J0, m.kJ, m.JBB⟩ = ug0 + J0)
    (ez : m.ug z + jNew dtau m.alphaMax z ⟨J0, m.kJ, m.JBB⟩ = ug0 + J0) : w = z := by
  have key : ∀ {T T' : ℝ}, 0 < T → J0 ≤ m.JBB T → T < T' → m.ug T + jNew dtau m.alphaMax T ⟨J0, m.kJ, m.JBB⟩ < m.ug T' + jNew dtau m.alphaMax T' ⟨J0, m.kJ, m.JBB⟩ := fun {T T'} hT h1 hlt => by
    have hT' : 0 < T' := hT.trans hlt
    have h2 := hu (Set.mem_Ioi.mpr hT) (Set.mem_Ioi.mpr hT') hlt
    have h3 := hB (Set.mem_Ioi.mpr hT) (Set.mem_Ioi.mpr hT') hlt.le
    have h4 : min (m.kJ T) m.alphaMax ≤ min (m.kJ T') m.alphaMax := min_le_min_right _ (hk (Set.mem_Ioi.mpr hT) (Set.mem_Ioi.mpr hT') hlt.le)
    have h5 : 0 ≤ dtau * min (m.kJ T) m.alphaMax := mul_nonneg hd (le_min (hk0 T hT) ha)
    have h6 : dtau * min (m.kJ T) m.alphaMax ≤ dtau * min (m.kJ T') m.alphaMax := mul_le_mul_of_nonneg_left h4 hd
    have h7 : jNew dtau m.alphaMax T ⟨J0, m.kJ, m.JBB⟩ ≤ jNew dtau m.alphaMax T' ⟨J0, m.kJ, m.JBB⟩ := by
      simp only [jNew]
      set a := dtau * min (m.kJ T) m.alphaMax
      set b := dtau * min (m.kJ T') m.alphaMax
      rw [div_le_div_iff₀ (by linarith) (by linarith)]
      nlinarith [mul_nonneg (sub_nonneg.mpr h6) (sub_nonneg.mpr h1), mul_nonneg (h5.trans h6) (sub_nonneg.mpr h3), mul_nonneg (mul_nonneg h5 (h5.trans h6)) (sub_nonneg.mpr h3)]
    linarith
  rcases lt_trichotomy w z with h | h | h
  · have := key hw hw1 h; linarith
  · exact h
  · have := key hz hz1 h; linarith

/-- **C141** in general it is not: with absorption growing like the square of the temperature, cold gas in radiation of energy density 5/2 is in balance at two temperatures, 1/2 and 2, so the temperature found depends on where the search begins. -/
theorem balance_not_unique : ∃ m : Mat, StrictMonoOn m.ug (Set.Ioi 0) ∧ MonotoneOn m.JBB (Set.Ioi 0) ∧ MonotoneOn m.kJ (Set.Ioi 0) ∧ Continuous m.kJ ∧ (∀ T, 0 ≤ m.kJ T ∧ 0 ≤ m.JBB T) ∧
    m.ug (1/2) + jNew 1 m.alphaMax (1/2) ⟨5/2, m.kJ, m.JBB⟩ = 0 + 5/2 ∧ m.ug 2 + jNew 1 m.alphaMax 2 ⟨5/2, m.kJ, m.JBB⟩ = 0 + 5/2 := by
  refine ⟨⟨fun T => T, fun T => T ^ 2, fun _ => 0, fun _ => 0, 100⟩, fun a _ b _ h => h, fun a _ b _ _ => le_rfl, fun a ha b hb h => ?_, continuous_pow 2, fun T => ⟨sq_nonneg T, le_rfl⟩, ?_, ?_⟩
  · have : 0 < a := ha
    show a ^ 2 ≤ b ^ 2
    nlinarith
  · simp only [jNew]; norm_num
  · simp only [jNew]; norm_num

end Phoebus.MomentSource
