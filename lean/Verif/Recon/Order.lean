import Verif.Recon.Props
import Mathlib.Analysis.Asymptotics.Lemmas
import Mathlib.Analysis.Calculus.Taylor
import Mathlib.Analysis.SpecialFunctions.Trigonometric.Deriv
import Mathlib.MeasureTheory.Integral.IntervalIntegral.FundThmCalculus

/-!
# Order of accuracy of the reconstructions (C157)

On cell averages of a smooth profile, where it has a slope, WENO5-Z and MP5 return its face values up to the fifth power of the cell width and the limited linear
reconstruction up to the second.  On point values at the cell centres every one of them is of second order only, with a leading error given by the second derivative.
-/
namespace Phoebus.Recon
open Asymptotics Filter Topology

/-! ### Exact estimates for one stencil -/

/-- the monotonised-central limiter returns the centred slope when both one-sided slopes are near a common nonzero one. -/
theorem mc_centred (al d e c : ℝ) (hal : 3/2 ≤ al) (hc : c ≠ 0) (h1 : |d - c| ≤ |c| / 5) (h2 : |e - c| ≤ |c| / 5) : mc d e al = (d + e) / 2 := by
  rw [abs_le] at h1 h2
  rcases lt_or_gt_of_ne hc with h | h
  · rw [abs_of_neg h] at h1 h2
    rw [mc_neg (by linarith) (by linarith) (by linarith), min_eq_left]
    · ring
    · have : 4/5 * -c ≤ min (-d) (-e) := le_min (by linarith) (by linarith)
      nlinarith
  · rw [abs_of_pos h] at h1 h2
    rw [mc_pos (by linarith) (by linarith) (by linarith), min_eq_left]
    have : 4/5 * c ≤ min d e := le_min (by linarith) (by linarith)
    nlinarith

/-- the MP5 limiter is inactive on a stencil near a line of nonzero slope. -/
theorem mp5_inactive (epsm q0 q1 q2 q3 q4 s : ℝ) (hm : 0 ≤ epsm) (hs : s ≠ 0) (h1 : |(q2 - q1) - s| ≤ |s| / 5) (h2 : |(q3 - q2) - s| ≤ |s| / 5)
    (h3 : |mp5High q0 q1 q2 q3 q4 - q2 - s / 2| ≤ |s| / 5) : mp5Subcalc epsm q0 q1 q2 q3 q4 = mp5High q0 q1 q2 q3 q4 := by
  unfold mp5Subcalc
  simp only
  rw [if_pos]
  refine le_trans ?_ hm
  have e : mp5MP q1 q2 q3 = q3 := by
    unfold mp5MP minmod2
    rw [abs_le] at h1 h2
    rcases lt_or_gt_of_ne hs with h | h
    · rw [abs_of_neg h] at h1 h2
      rw [if_pos (by nlinarith), if_pos]
      · ring
      · rw [abs_of_neg (by linarith), abs_of_neg (by linarith)]; linarith
    · rw [abs_of_pos h] at h1 h2
      rw [if_pos (mul_pos (by linarith) (by linarith)), if_pos]
      · ring
      · rw [abs_of_pos (by linarith), abs_of_pos (by linarith)]; linarith
  rw [e]
  rw [abs_le] at h2 h3
  rcases lt_or_gt_of_ne hs with h | h
  · rw [abs_of_neg h] at h2 h3
    exact mul_nonpos_of_nonpos_of_nonneg (by linarith) (by linarith)
  · rw [abs_of_pos h] at h2 h3
    exact mul_nonpos_of_nonneg_of_nonpos (by linarith) (by linarith)

/-- a normalised weight stays near its linear value. -/
theorem weight_near (u0 u1 u2 U X0 X1 X2 M : ℝ) (g0 g1 g2 : ℝ) (hg : g0 + g1 + g2 = 1) (p0 : 0 < g0) (p1 : 0 < g1) (p2 : 0 < g2)
    (h0 : 0 ≤ u0 ∧ u0 ≤ U) (h1 : 0 ≤ u1 ∧ u1 ≤ U) (h2 : 0 ≤ u2 ∧ u2 ≤ U) (hX : g0 * X0 + g1 * X1 + g2 * X2 = 0) (m0 : |X0| ≤ M) (m1 : |X1| ≤ M) (m2 : |X2| ≤ M) :
    |(g0 * (1 + u0) * X0 + g1 * (1 + u1) * X1 + g2 * (1 + u2) * X2) / (g0 * (1 + u0) + g1 * (1 + u1) + g2 * (1 + u2))| ≤ U * M := by
  have hU : 0 ≤ U := h0.1.trans h0.2
  have hM : 0 ≤ M := (abs_nonneg _).trans m0
  have hd : 1 ≤ g0 * (1 + u0) + g1 * (1 + u1) + g2 * (1 + u2) := by
    nlinarith [mul_nonneg p0.le h0.1, mul_nonneg p1.le h1.1, mul_nonneg p2.le h2.1]
  have e : g0 * (1 + u0) * X0 + g1 * (1 + u1) * X1 + g2 * (1 + u2) * X2 = g0 * (u0 * X0) + g1 * (u1 * X1) + g2 * (u2 * X2) := by linarith
  have B : ∀ u X : ℝ, 0 ≤ u ∧ u ≤ U → |X| ≤ M → |u * X| ≤ U * M := fun u X hu hX => by
    rw [abs_mul, abs_of_nonneg hu.1]
    exact mul_le_mul hu.2 hX (abs_nonneg _) hU
  have b0 := abs_le.1 (B _ _ h0 m0)
  have b1 := abs_le.1 (B _ _ h1 m1)
  have b2 := abs_le.1 (B _ _ h2 m2)
  have hN : |g0 * (u0 * X0) + g1 * (u1 * X1) + g2 * (u2 * X2)| ≤ U * M := by
    rw [abs_le]
    constructor
    · nlinarith [mul_le_mul_of_nonneg_left b0.1 p0.le, mul_le_mul_of_nonneg_left b1.1 p1.le, mul_le_mul_of_nonneg_left b2.1 p2.le]
    · nlinarith [mul_le_mul_of_nonneg_left b0.2 p0.le, mul_le_mul_of_nonneg_left b1.2 p1.le, mul_le_mul_of_nonneg_left b2.2 p2.le]
  rw [e, abs_div, abs_of_pos (lt_of_lt_of_le one_pos hd), div_le_iff₀ (lt_of_lt_of_le one_pos hd)]
  exact hN.trans (le_mul_of_one_le_right (by positivity) hd)

/-- the blend coefficient stays near one. -/
theorem alpha_near (eps U u0 u1 u2 : ℝ) (h0 : 0 ≤ u0 ∧ u0 ≤ U) (h1 : 0 ≤ u1 ∧ u1 ≤ U) (h2 : 0 ≤ u2 ∧ u2 ≤ U) :
    1 / (1 + U) + eps ≤ wenoAlpha eps (1/10 * (1 + u0), 6/10 * (1 + u1), 3/10 * (1 + u2)) ∧
    wenoAlpha eps (1/10 * (1 + u0), 6/10 * (1 + u1), 3/10 * (1 + u2)) ≤ 1 + U + eps := by
  have hU : 0 ≤ U := h0.1.trans h0.2
  have a0 : 0 < 1 + u0 := by linarith [h0.1]
  have a1 : 0 < 1 + u1 := by linarith [h1.1]
  have a2 : 0 < 1 + u2 := by linarith [h2.1]
  have aU : 0 < 1 + U := by linarith
  have e : wenoAlpha eps (1/10 * (1 + u0), 6/10 * (1 + u1), 3/10 * (1 + u2)) =
      3 / ((1/10 * (1 + u0) + 6/10 * (1 + u1) + 3/10 * (1 + u2)) * (1 / (1 + u0) + 1 / (1 + u1) + 1 / (1 + u2))) + eps := by
    unfold wenoAlpha
    simp only
    congr 1
    have d1 : 0 < 1/10 * (1 + u0) + 6/10 * (1 + u1) + 3/10 * (1 + u2) := by positivity
    rw [div_eq_div_iff (by positivity) (by positivity)]
    field_simp
    ring
  rw [e]
  have R : ∀ u, 0 ≤ u ∧ u ≤ U → 1 / (1 + U) ≤ 1 / (1 + u) ∧ 1 / (1 + u) ≤ 1 := fun u hu => by
    constructor
    · exact one_div_le_one_div_of_le (by linarith [hu.1]) (by linarith [hu.2])
    · rw [div_le_one (by linarith [hu.1])]; linarith [hu.1]
  have r0 := R u0 h0
  have r1 := R u1 h1
  have r2 := R u2 h2
  set S := 1/10 * (1 + u0) + 6/10 * (1 + u1) + 3/10 * (1 + u2)
  set T := 1 / (1 + u0) + 1 / (1 + u1) + 1 / (1 + u2)
  have S1 : 1 ≤ S := by simp only [S]; linarith [h0.1, h1.1, h2.1]
  have S2 : S ≤ 1 + U := by simp only [S]; linarith [h0.2, h1.2, h2.2]
  have T1 : 3 * (1 / (1 + U)) ≤ T := by simp only [T]; linarith
  have T2 : T ≤ 3 := by simp only [T]; linarith
  have pU : 0 < 1 / (1 + U) := by positivity
  have pT : 0 < T := by linarith
  have pS : 0 < S := by linarith
  constructor
  · have : 1 / (1 + U) ≤ 3 / (S * T) := by
      rw [div_le_div_iff₀ aU (by positivity)]
      nlinarith
    linarith
  · have : 3 / (S * T) ≤ 1 + U := by
      rw [div_le_iff₀ (by positivity)]
      have : 3 ≤ (1 + U) * T := by
        have := mul_le_mul_of_nonneg_left T1 aU.le
        have e : (1 + U) * (3 * (1 / (1 + U))) = 3 := by field_simp
        linarith
      nlinarith
    linarith

/-- one WENO5-Z state against the linear fifth-order value, from a bound `U` on the excess of the weights and a bound `M` on the spread of the candidates. -/
theorem weno_near_high (eps U M q0 q1 q2 q3 q4 : ℝ) (he : 0 < eps)
    (hU : let be := wenoBeta eps q0 q1 q2 q3 q4
      ∀ b, b = be.1 ∨ b = be.2.1 ∨ b = be.2.2 → |be.2.2 - be.1| / b + 10 * eps ≤ U)
    (m3 : |q3 - 3 * q2 + 3 * q1 - q0| ≤ M) (m3' : |q4 - 3 * q3 + 3 * q2 - q1| ≤ M) :
    |(weno5z eps q0 q1 q2 q3 q4).1 - mp5High q0 q1 q2 q3 q4| ≤
      (1 + U + eps) * (U * M) + (U + eps) * |q2 + 1/2 * mc (q2 - q1) (q3 - q2) 2 - mp5High q0 q1 q2 q3 q4| := by
  have hb := wenoBeta_pos he q0 q1 q2 q3 q4
  obtain ⟨⟨b0, b1, b2⟩, hbe⟩ : ∃ p, p = wenoBeta eps q0 q1 q2 q3 q4 := ⟨_, rfl⟩
  rw [← hbe] at hb
  simp only [← hbe] at hU
  simp only at hb hU
  obtain ⟨hb0, hb1, hb2⟩ := hb
  set τ := |b2 - b0| with hτ
  have τ0 : 0 ≤ τ := abs_nonneg _
  -- excesses of the weights for both faces
  have X : ∀ b γ : ℝ, b = b0 ∨ b = b1 ∨ b = b2 → 0 < b → 1/10 ≤ γ → 0 ≤ τ / b + eps / γ ∧ τ / b + eps / γ ≤ U := fun b γ hm hp hγ => by
    have : eps / γ ≤ 10 * eps := by
      rw [div_le_iff₀ (by linarith)]; nlinarith
    have := hU b hm
    exact ⟨by positivity, by linarith⟩
  have W : ∀ b γ : ℝ, 0 < b → 0 < γ → γ * ((b + τ) / b) + eps = γ * (1 + (τ / b + eps / γ)) := fun b γ h1 h2 => by field_simp; ring
  have hz : wenoZ (b0, b1, b2) = ((b0 + τ) / b0, (b1 + τ) / b1, (b2 + τ) / b2) := rfl
  have hl : wenoWl eps (wenoZ (b0, b1, b2)) = (1/10 * (1 + (τ / b0 + eps / (1/10))), 6/10 * (1 + (τ / b1 + eps / (6/10))), 3/10 * (1 + (τ / b2 + eps / (3/10)))) := by
    rw [hz]; unfold wenoWl; simp only
    rw [W _ _ hb0 (by norm_num), W _ _ hb1 (by norm_num), W _ _ hb2 (by norm_num)]
  have hr : wenoWr eps (wenoZ (b0, b1, b2)) = (1/10 * (1 + (τ / b2 + eps / (1/10))), 6/10 * (1 + (τ / b1 + eps / (6/10))), 3/10 * (1 + (τ / b0 + eps / (3/10)))) := by
    rw [hz]; unfold wenoWr; simp only
    rw [W _ _ hb0 (by norm_num), W _ _ hb1 (by norm_num), W _ _ hb2 (by norm_num)]
  have xl0 := X b0 (1/10) (by simp) hb0 (by norm_num)
  have xl1 := X b1 (6/10) (by simp) hb1 (by norm_num)
  have xl2 := X b2 (3/10) (by simp) hb2 (by norm_num)
  have xr0 := X b2 (1/10) (by simp) hb2 (by norm_num)
  have xr2 := X b0 (3/10) (by simp) hb0 (by norm_num)
  have Al := alpha_near eps U _ _ _ xl0 xl1 xl2
  have Ar := alpha_near eps U _ _ _ xr0 xl1 xr2
  rw [← hl] at Al
  rw [← hr] at Ar
  have U0 : 0 ≤ U := xl0.1.trans xl0.2
  have iU : 1 - U ≤ 1 / (1 + U) := by rw [le_div_iff₀ (by linarith)]; nlinarith
  have pU : 0 < 1 / (1 + U) := by positivity
  -- the blend
  have hA : |wenoBlend eps q0 q1 q2 q3 q4 - 1| ≤ U + eps ∧ 0 ≤ wenoBlend eps q0 q1 q2 q3 q4 ∧ wenoBlend eps q0 q1 q2 q3 q4 ≤ 1 + U + eps := by
    unfold wenoBlend
    simp only [← hbe]
    set x := wenoAlpha eps (wenoWl eps (wenoZ (b0, b1, b2)))
    set y := wenoAlpha eps (wenoWr eps (wenoZ (b0, b1, b2)))
    have px : 0 < x := by linarith [Al.1]
    have py : 0 < y := by linarith [Ar.1]
    have hi : 2 * x * y / (x + y) ≤ 1 + U + eps := by
      rw [div_le_iff₀ (by linarith)]
      nlinarith [mul_nonneg px.le (sub_nonneg.2 Ar.2), mul_nonneg py.le (sub_nonneg.2 Al.2)]
    have lo : 1 / (1 + U) + eps ≤ 2 * x * y / (x + y) := by
      rw [le_div_iff₀ (by linarith)]
      nlinarith [mul_nonneg px.le (sub_nonneg.2 Ar.1), mul_nonneg py.le (sub_nonneg.2 Al.1)]
    refine ⟨abs_le.2 ⟨by linarith, by linarith⟩, by linarith, hi⟩
  -- the convex part
  have hH : |wenoHiL (wenoWl eps (wenoZ (b0, b1, b2))) q0 q1 q2 q3 q4 - mp5High q0 q1 q2 q3 q4| ≤ U * M := by
    rw [abs_le] at m3 m3'
    have wn := weight_near _ _ _ U
      ((1/3 * q0 + -7/6 * q1 + 11/6 * q2) - mp5High q0 q1 q2 q3 q4) ((-1/6 * q1 + 5/6 * q2 + 1/3 * q3) - mp5High q0 q1 q2 q3 q4)
      ((1/3 * q2 + 5/6 * q3 + -1/6 * q4) - mp5High q0 q1 q2 q3 q4) M (1/10) (6/10) (3/10) (by norm_num) (by norm_num) (by norm_num) (by norm_num) xl0 xl1 xl2
      (by unfold mp5High; ring)
      (by unfold mp5High; rw [abs_le]; constructor <;> linarith)
      (by unfold mp5High; rw [abs_le]; constructor <;> linarith)
      (by unfold mp5High; rw [abs_le]; constructor <;> linarith)
    rw [hl]
    refine le_of_eq_of_le ?_ wn
    congr 1
    unfold wenoHiL
    simp only
    have hd : 1/10 * (1 + (τ / b0 + eps / (1/10))) + 6/10 * (1 + (τ / b1 + eps / (6/10))) + 3/10 * (1 + (τ / b2 + eps / (3/10))) ≠ 0 := by
      have := xl0.1; have := xl1.1; have := xl2.1
      intro h0; linarith
    generalize 1 + (τ / b0 + eps / (1/10)) = v0 at *
    generalize 1 + (τ / b1 + eps / (6/10)) = v1 at *
    generalize 1 + (τ / b2 + eps / (3/10)) = v2 at *
    have hd' : 1/10 * v0 + 6/10 * v1 + 3/10 * v2 ≠ 0 := hd
    rw [eq_div_iff hd', sub_mul, mul_assoc, one_div_mul_cancel hd']
    ring
  have e : (weno5z eps q0 q1 q2 q3 q4).1 - mp5High q0 q1 q2 q3 q4 =
      wenoBlend eps q0 q1 q2 q3 q4 * (wenoHiL (wenoWl eps (wenoZ (b0, b1, b2))) q0 q1 q2 q3 q4 - mp5High q0 q1 q2 q3 q4)
      - (wenoBlend eps q0 q1 q2 q3 q4 - 1) * (q2 + 1/2 * mc (q2 - q1) (q3 - q2) 2 - mp5High q0 q1 q2 q3 q4) := by
    unfold weno5z
    simp only [← hbe]
    ring
  rw [e]
  refine (abs_sub _ _).trans ?_
  rw [abs_mul, abs_mul, abs_of_nonneg hA.2.1]
  refine add_le_add (mul_le_mul hA.2.2 hH (abs_nonneg _) (by linarith)) (mul_le_mul_of_nonneg_right hA.1 (abs_nonneg _))

/-! ### Expansions -/

section
variable {ι : Type*} {l : Filter ι} {h : ι → ℝ} {a : ℕ → ℝ}

/-- `q = sum over n < 5 of a n * c n * h ^ n`, up to the fifth power of `h`. -/
def Expands (l : Filter ι) (h : ι → ℝ) (a c : ℕ → ℝ) (q : ι → ℝ) : Prop :=
  (fun i => q i - ∑ n ∈ Finset.range 5, a n * c n * h i ^ n) =O[l] fun i => h i ^ 5

theorem Expands.add {c d : ℕ → ℝ} {q r : ι → ℝ} (hq : Expands l h a c q) (hr : Expands l h a d r) : Expands l h a (fun n => c n + d n) (fun i => q i + r i) :=
  (IsBigO.add hq hr).congr_left fun i => by simp only [Finset.sum_range_succ, Finset.sum_range_zero]; ring

theorem Expands.sub {c d : ℕ → ℝ} {q r : ι → ℝ} (hq : Expands l h a c q) (hr : Expands l h a d r) : Expands l h a (fun n => c n - d n) (fun i => q i - r i) :=
  (IsBigO.sub hq hr).congr_left fun i => by simp only [Finset.sum_range_succ, Finset.sum_range_zero]; ring

theorem Expands.smul {c : ℕ → ℝ} {q : ι → ℝ} (w : ℝ) (hq : Expands l h a c q) : Expands l h a (fun n => w * c n) (fun i => w * q i) :=
  (IsBigO.const_mul_left hq w).congr_left fun i => by simp only [Finset.sum_range_succ, Finset.sum_range_zero]; ring

theorem pow_bigO (h0 : Tendsto h l (𝓝 0)) {m n : ℕ} (hmn : m ≤ n) : (fun i => h i ^ n) =O[l] fun i => h i ^ m := by
  have e : (fun i => h i ^ n) = fun i => h i ^ (n - m) * h i ^ m := by funext i; rw [← pow_add]; congr 1; omega
  rw [e]
  have : (fun i => h i ^ (n - m)) =O[l] fun _ => (1:ℝ) := (h0.pow (n - m)).isBigO_one ℝ
  simpa using this.mul (isBigO_refl (fun i => h i ^ m) l)

/-- the leading term of an expansion. -/
theorem Expands.lead {c : ℕ → ℝ} {q : ι → ℝ} (hq : Expands l h a c q) (h0 : Tendsto h l (𝓝 0)) (m : ℕ) (hm : m < 5) (hv : ∀ n < m, c n = 0) :
    (fun i => q i - a m * c m * h i ^ m) =O[l] fun i => h i ^ (m + 1) := by
  have A : (fun i => q i - ∑ n ∈ Finset.range 5, a n * c n * h i ^ n) =O[l] fun i => h i ^ (m + 1) := IsBigO.trans hq (pow_bigO h0 (by omega))
  have B : (fun i => ∑ n ∈ Finset.range 5, (if n ≤ m then 0 else a n * c n) * h i ^ n) =O[l] fun i => h i ^ (m + 1) := by
    refine IsBigO.fun_sum fun n _ => ?_
    rcases le_or_gt n m with hn | hn
    · simp only [if_pos hn, zero_mul]; exact isBigO_zero _ _
    · exact (pow_bigO h0 hn).const_mul_left _
  refine (A.add B).congr_left fun i => ?_
  have e : ∑ n ∈ Finset.range 5, a n * c n * h i ^ n = ∑ n ∈ Finset.range 5, (if n ≤ m then 0 else a n * c n) * h i ^ n + ∑ n ∈ Finset.range 5, (if n = m then a n * c n * h i ^ n else 0) := by
    rw [← Finset.sum_add_distrib]
    refine Finset.sum_congr rfl fun n _ => ?_
    rcases lt_trichotomy n m with hn | hn | hn
    · rw [hv n hn]; simp [hn.ne]
    · simp [hn]
    · simp [hn.ne', not_le.2 hn]
  rw [Finset.sum_ite_eq' (Finset.range 5) m, if_pos (Finset.mem_range.2 hm)] at e
  rw [e]; ring

theorem Expands.order {c : ℕ → ℝ} {q : ι → ℝ} (hq : Expands l h a c q) (h0 : Tendsto h l (𝓝 0)) (m : ℕ) (hm : m ≤ 5) (hv : ∀ n < m, c n = 0) : q =O[l] fun i => h i ^ m := by
  rcases hm.lt_or_eq with h5 | rfl
  · have := ((hq.lead h0 m h5 hv).trans (pow_bigO h0 (Nat.le_succ m))).add ((isBigO_refl (fun i => h i ^ m) l).const_mul_left (a m * c m))
    refine this.congr_left fun i => by ring
  · refine IsBigO.congr_left hq fun i => ?_
    rw [Finset.sum_eq_zero, sub_zero]
    intro n hn
    rw [hv n (Finset.mem_range.1 hn)]; ring

/-- Five consecutive values of something smooth with slope `s`, in terms of their differences. -/
structure Ramp (l : Filter ι) (h q0 q1 q2 q3 q4 : ι → ℝ) (s : ℝ) : Prop where
  slope : s ≠ 0
  first : (fun i => q3 i - q2 i - s * h i) =O[l] fun i => h i ^ 2
  left : (fun i => q0 i - 2 * q1 i + q2 i) =O[l] fun i => h i ^ 2
  mid : (fun i => q1 i - 2 * q2 i + q3 i) =O[l] fun i => h i ^ 2
  right : (fun i => q2 i - 2 * q3 i + q4 i) =O[l] fun i => h i ^ 2
  lo : (fun i => q3 i - 3 * q2 i + 3 * q1 i - q0 i) =O[l] fun i => h i ^ 3
  hi : (fun i => q4 i - 3 * q3 i + 3 * q2 i - q1 i) =O[l] fun i => h i ^ 3
  fourth : (fun i => q4 i - 4 * q3 i + 6 * q2 i - 4 * q1 i + q0 i) =O[l] fun i => h i ^ 4

variable {q0 q1 q2 q3 q4 : ι → ℝ} {s : ℝ}

theorem Ramp.reverse (R : Ramp l h q0 q1 q2 q3 q4 s) : Ramp l h q4 q3 q2 q1 q0 (-s) where
  slope := neg_ne_zero.2 R.slope
  first := (R.mid.sub R.first).congr_left fun i => by ring
  left := R.right.congr_left fun i => by ring
  mid := R.mid.congr_left fun i => by ring
  right := R.left.congr_left fun i => by ring
  lo := R.hi.neg_left.congr_left fun i => by ring
  hi := R.lo.neg_left.congr_left fun i => by ring
  fourth := R.fourth.congr_left fun i => by ring

/-- a quantity of second order is eventually below any fraction of the slope. -/
theorem small_of_sq {u : ι → ℝ} (hu : u =O[l] fun i => h i ^ 2) (h0 : Tendsto h l (𝓝 0)) {k : ℝ} (hk : 0 < k) : ∀ᶠ i in l, |u i| ≤ k * |h i| := by
  have o : (fun i => h i ^ 2) =o[l] h := by
    have : (fun i => h i ^ 2) = fun i => h i * h i := by funext i; ring
    rw [this]
    simpa using (isLittleO_one_iff ℝ).2 h0 |>.mul_isBigO (isBigO_refl h l)
  exact (hu.trans_isLittleO o).bound hk

/-- the one-sided slopes of a ramp, and the fifth-order face value, are near those of a line. -/
theorem Ramp.near (R : Ramp l h q0 q1 q2 q3 q4 s) (h0 : Tendsto h l (𝓝 0)) : ∀ᶠ i in l,
    |(q2 i - q1 i) - s * h i| ≤ |s * h i| / 5 ∧ |(q3 i - q2 i) - s * h i| ≤ |s * h i| / 5 ∧ |mp5High (q0 i) (q1 i) (q2 i) (q3 i) (q4 i) - q2 i - s * h i / 2| ≤ |s * h i| / 5 ∧
    |(q0 i - 4 * q1 i + 3 * q2 i) - 2 * (s * h i)| ≤ |s * h i| ∧ |(q3 i - q1 i) - 2 * (s * h i)| ≤ |s * h i| ∧ |(q4 i - 4 * q3 i + 3 * q2 i) + 2 * (s * h i)| ≤ |s * h i| := by
  have ks : 0 < |s| := abs_pos.2 R.slope
  have k : 0 < |s| / 5 := by positivity
  have d1 : (fun i => q2 i - q1 i - s * h i) =O[l] fun i => h i ^ 2 := (R.first.sub R.mid).congr_left fun i => by ring
  have d3 : (fun i => mp5High (q0 i) (q1 i) (q2 i) (q3 i) (q4 i) - q2 i - s * h i / 2) =O[l] fun i => h i ^ 2 := by
    have := ((R.first.const_mul_left (1/2)).add (((R.left.const_mul_left (1/30)).sub (R.mid.const_mul_left (3/20))).sub (R.right.const_mul_left (1/20))))
    refine this.congr_left fun i => ?_
    unfold mp5High; ring
  have d4 : (fun i => (q0 i - 4 * q1 i + 3 * q2 i) - 2 * (s * h i)) =O[l] fun i => h i ^ 2 := ((d1.const_mul_left 2).add R.left).congr_left fun i => by ring
  have d5 : (fun i => (q3 i - q1 i) - 2 * (s * h i)) =O[l] fun i => h i ^ 2 := (d1.add R.first).congr_left fun i => by ring
  have d6 : (fun i => (q4 i - 4 * q3 i + 3 * q2 i) + 2 * (s * h i)) =O[l] fun i => h i ^ 2 := (R.right.sub (R.first.const_mul_left 2)).congr_left fun i => by ring
  filter_upwards [small_of_sq d1 h0 k, small_of_sq R.first h0 k, small_of_sq d3 h0 k, small_of_sq d4 h0 ks, small_of_sq d5 h0 ks, small_of_sq d6 h0 ks] with i e1 e2 e3 e4 e5 e6
  rw [abs_mul]
  exact ⟨e1.trans_eq (by ring), e2.trans_eq (by ring), e3.trans_eq (by ring), e4, e5, e6⟩

theorem Ramp.linear (R : Ramp l h q0 q1 q2 q3 q4 s) (h0 : Tendsto h l (𝓝 0)) (hp : ∀ᶠ i in l, 0 < h i) (al : ℝ) (hal : 3/2 ≤ al) :
    ∀ᶠ i in l, mc (q2 i - q1 i) (q3 i - q2 i) al = (q3 i - q1 i) / 2 := by
  filter_upwards [R.near h0, hp] with i hi hpi
  rw [mc_centred al _ _ (s * h i) hal (mul_ne_zero R.slope hpi.ne') hi.1 hi.2.1]
  ring

theorem Ramp.mp5 (R : Ramp l h q0 q1 q2 q3 q4 s) (h0 : Tendsto h l (𝓝 0)) (hp : ∀ᶠ i in l, 0 < h i) :
    ∀ᶠ i in l, ∀ epsm, 0 ≤ epsm → mp5Subcalc epsm (q0 i) (q1 i) (q2 i) (q3 i) (q4 i) = mp5High (q0 i) (q1 i) (q2 i) (q3 i) (q4 i) := by
  filter_upwards [R.near h0, hp] with i hi hpi epsm hm
  exact mp5_inactive epsm _ _ _ _ _ (s * h i) hm (mul_ne_zero R.slope hpi.ne') hi.1 hi.2.1 hi.2.2.1

/-- **WENO5-Z on a ramp** is the linear fifth-order value, up to the fifth power of the cell width and the regularisation. -/
theorem Ramp.weno (R : Ramp l h q0 q1 q2 q3 q4 s) (h0 : Tendsto h l (𝓝 0)) (hp : ∀ᶠ i in l, 0 < h i) {eps : ι → ℝ} (he : ∀ᶠ i in l, 0 < eps i ∧ eps i ≤ 1) :
    (fun i => (weno5z (eps i) (q0 i) (q1 i) (q2 i) (q3 i) (q4 i)).1 - mp5High (q0 i) (q1 i) (q2 i) (q3 i) (q4 i)) =O[l] fun i => h i ^ 5 + eps i * h i ^ 2 := by
  have ks : 0 < |s| := abs_pos.2 R.slope
  -- the global smoothness indicator
  set tau : ι → ℝ := fun i => (wenoBeta (eps i) (q0 i) (q1 i) (q2 i) (q3 i) (q4 i)).2.2 - (wenoBeta (eps i) (q0 i) (q1 i) (q2 i) (q3 i) (q4 i)).1 with htau
  have hT : tau =O[l] fun i => h i ^ 5 := by
    have A := (((R.lo.add R.hi).mul (R.left.add R.right)).const_mul_left (13/3)).congr_right (g₂ := fun i => h i ^ 5) fun i => by ring
    have b1 : (fun i => (q4 i - 4 * q3 i + 3 * q2 i) - (q0 i - 4 * q1 i + 3 * q2 i)) =O[l] h := by
      have sq : (fun i => h i ^ 2) =O[l] h := by simpa using pow_bigO h0 (show 1 ≤ 2 by norm_num)
      have := (((R.right.sub R.left).sub ((R.first.const_mul_left 4).sub (R.mid.const_mul_left 2))).trans sq).add ((isBigO_refl h l).const_mul_left (-4 * s))
      refine this.congr_left fun i => by ring
    have B := (b1.mul R.fourth).congr_right (g₂ := fun i => h i ^ 5) fun i => by ring
    refine (A.add B).congr_left fun i => ?_
    simp only [htau, wenoBeta]
    ring
  -- the spread of the candidates and the linear state
  set M : ι → ℝ := fun i => |q3 i - 3 * q2 i + 3 * q1 i - q0 i| + |q4 i - 3 * q3 i + 3 * q2 i - q1 i| with hMdef
  have hM : M =O[l] fun i => h i ^ 3 := R.lo.norm_left.add R.hi.norm_left
  set N : ι → ℝ := fun i => q2 i + 1/2 * mc (q2 i - q1 i) (q3 i - q2 i) 2 - mp5High (q0 i) (q1 i) (q2 i) (q3 i) (q4 i) with hNdef
  have hN : N =O[l] fun i => h i ^ 2 := by
    have := (((R.left.const_mul_left (-1/30)).add (R.mid.const_mul_left (-1/10))).add (R.right.const_mul_left (1/20)))
    refine this.congr' ?_ EventuallyEq.rfl
    filter_upwards [R.linear h0 hp 2 (by norm_num)] with i hi
    simp only [hNdef, hi, mp5High]
    ring
  set U : ι → ℝ := fun i => |tau i| / (|s| * h i) ^ 2 + 10 * eps i with hUdef
  have bound : ∀ᶠ i in l, |(weno5z (eps i) (q0 i) (q1 i) (q2 i) (q3 i) (q4 i)).1 - mp5High (q0 i) (q1 i) (q2 i) (q3 i) (q4 i)| ≤
      (1 + U i + eps i) * (U i * M i) + (U i + eps i) * |N i| := by
    filter_upwards [R.near h0, hp, he] with i hi hpi hei
    obtain ⟨-, -, -, n0, n1, n2⟩ := hi
    have sq : ∀ A B : ℝ, |B - 2 * (s * h i)| ≤ |s * h i| ∨ |B + 2 * (s * h i)| ≤ |s * h i| → (|s| * h i) ^ 2 ≤ 13/3 * A * A + B * B + eps i := fun A B hB => by
      have hsh : |s * h i| = |s| * h i := by rw [abs_mul, abs_of_pos hpi]
      have : |s| * h i ≤ |B| := by
        rw [hsh] at hB
        have t : |2 * (s * h i)| = 2 * (|s| * h i) := by rw [abs_mul, hsh]; norm_num
        rcases hB with hB | hB
        · have := abs_sub_abs_le_abs_sub (2 * (s * h i)) B
          rw [abs_sub_comm] at this
          linarith
        · have := abs_sub_abs_le_abs_sub (2 * (s * h i)) (-B)
          rw [abs_neg, sub_neg_eq_add, add_comm (2 * (s * h i)) B] at this
          linarith
      have h2 : (|s| * h i) ^ 2 ≤ |B| ^ 2 := pow_le_pow_left₀ (by positivity) this 2
      rw [sq_abs] at h2
      nlinarith [mul_self_nonneg A, hei.1]
    refine weno_near_high (eps i) (U i) (M i) _ _ _ _ _ hei.1 ?_ (by simp only [hMdef]; linarith [abs_nonneg (q4 i - 3 * q3 i + 3 * q2 i - q1 i)])
      (by simp only [hMdef]; linarith [abs_nonneg (q3 i - 3 * q2 i + 3 * q1 i - q0 i)])
    intro be b hb
    have hbb : (|s| * h i) ^ 2 ≤ b := by
      rcases hb with rfl | rfl | rfl
      · exact sq _ _ (Or.inl n0)
      · exact sq _ _ (Or.inl n1)
      · exact sq _ _ (Or.inr n2)
    simp only [hUdef]
    have p : 0 < (|s| * h i) ^ 2 := by positivity
    have : |be.2.2 - be.1| / b ≤ |tau i| / (|s| * h i) ^ 2 := div_le_div_of_nonneg_left (abs_nonneg _) p hbb
    linarith
  -- orders
  have hU : U =O[l] fun i => h i ^ 3 + eps i := by
    have A : (fun i => |tau i| / (|s| * h i) ^ 2) =O[l] fun i => h i ^ 3 := by
      obtain ⟨C, hC⟩ := hT.bound
      refine IsBigO.of_bound (C / |s| ^ 2) ?_
      filter_upwards [hC, hp] with i hi hpi
      rw [Real.norm_of_nonneg (by positivity), Real.norm_of_nonneg (by positivity)]
      rw [Real.norm_of_nonneg (pow_nonneg hpi.le 5), Real.norm_eq_abs] at hi
      rw [div_le_iff₀ (by positivity)]
      refine hi.trans_eq ?_
      field_simp
    have B : (fun i => h i ^ 3) =O[l] fun i => h i ^ 3 + eps i := IsBigO.of_bound 1 (by
      filter_upwards [hp, he] with i hpi hei
      have := hei.1
      rw [Real.norm_of_nonneg (by positivity), Real.norm_of_nonneg (by positivity), one_mul]; linarith)
    have D : (fun i => 10 * eps i) =O[l] fun i => h i ^ 3 + eps i := IsBigO.of_bound 10 (by
      filter_upwards [hp, he] with i hpi hei
      have := hei.1
      have : 0 < h i ^ 3 := by positivity
      rw [Real.norm_of_nonneg (by positivity), Real.norm_of_nonneg (by positivity)]; linarith)
    exact (A.trans B).add D
  have e1 : eps =O[l] fun _ => (1:ℝ) := IsBigO.of_bound 1 (by
    filter_upwards [he] with i hei
    rw [Real.norm_of_nonneg hei.1.le]; simpa using hei.2)
  have hU1 : U =O[l] fun _ => (1:ℝ) := hU.trans (((h0.pow 3).isBigO_one ℝ).add e1)
  have hE : eps =O[l] fun i => h i ^ 3 + eps i := IsBigO.of_bound 1 (by
    filter_upwards [hp, he] with i hpi hei
    have := hei.1
    have : 0 < h i ^ 3 := by positivity
    rw [Real.norm_of_nonneg (by positivity), Real.norm_of_nonneg (by positivity)]; linarith)
  have t1 : (fun i => (1 + U i + eps i) * (U i * M i)) =O[l] fun i => h i ^ 5 + eps i * h i ^ 2 := by
    have c1 : (fun i => 1 + U i + eps i) =O[l] fun _ => (1:ℝ) := ((isBigO_refl _ _).add hU1).add e1
    have := c1.mul (hU.mul (hM.trans (pow_bigO h0 (show 2 ≤ 3 by norm_num))))
    exact this.congr_right fun i => by ring
  have t2 : (fun i => (U i + eps i) * |N i|) =O[l] fun i => h i ^ 5 + eps i * h i ^ 2 := by
    have := (hU.add hE).mul hN.norm_left
    exact this.congr_right fun i => by ring
  refine IsBigO.trans (IsBigO.of_bound 1 ?_) (t1.add t2)
  filter_upwards [bound] with i hi
  rw [one_mul, Real.norm_eq_abs, Real.norm_eq_abs]
  exact hi.trans (le_abs_self _)

end

/-! ### Smooth profiles -/

/-- average of `f` over the cell number `k` of width `h`, counted from the cell centred at `x`. -/
noncomputable def cellAvg (f : ℝ → ℝ) (x h : ℝ) (k : ℤ) : ℝ := (∫ y in (x + (k - 1/2) * h)..(x + (k + 1/2) * h), f y) / h

/-- value of `f` at the centre of the cell number `k`. -/
def cellPoint (f : ℝ → ℝ) (x h : ℝ) (k : ℤ) : ℝ := f (x + k * h)

/-- Taylor coefficients. -/
noncomputable def taylorCoef (f : ℝ → ℝ) (x : ℝ) (n : ℕ) : ℝ := iteratedDeriv n f x / n.factorial

theorem taylor_bigO {f : ℝ → ℝ} (n : ℕ) (hf : ContDiff ℝ n f) (x : ℝ) : (fun t => f (x + t) - ∑ k ∈ Finset.range n, taylorCoef f x k * t ^ k) =O[𝓝 0] fun t => t ^ n := by
  have tx : Tendsto (fun t : ℝ => x + t) (𝓝 0) (𝓝 x) := by
    have : Tendsto (fun t : ℝ => x + t) (𝓝 0) (𝓝 (x + 0)) := (continuous_const.add continuous_id).tendsto 0
    simpa using this
  have A := ((taylor_isLittleO_univ (x₀ := x) hf).comp_tendsto tx).isBigO
  have B := (isBigO_refl (fun t : ℝ => t ^ n) (𝓝 0)).const_mul_left (taylorCoef f x n)
  have A' : (fun t => f (x + t) - ∑ k ∈ Finset.range (n + 1), taylorCoef f x k * t ^ k) =O[𝓝 0] fun t => t ^ n := by
    refine A.congr (fun t => ?_) fun t => by simp
    simp only [Function.comp, taylor_within_apply, iteratedDerivWithin_univ, taylorCoef, smul_eq_mul]
    congr 1
    refine Finset.sum_congr rfl fun k _ => ?_
    rw [add_sub_cancel_left, div_eq_mul_inv]; ring
  refine (A'.add B).congr_left fun t => ?_
  rw [Finset.sum_range_succ]; ring

section
variable {ι : Type*} {l : Filter ι} {h : ι → ℝ} {f : ℝ → ℝ} {x : ℝ}

theorem expands_point (hf : ContDiff ℝ 5 f) (h0 : Tendsto h l (𝓝 0)) (κ : ℝ) : Expands l h (taylorCoef f x) (fun n => κ ^ n) (fun i => f (x + κ * h i)) := by
  have tk : Tendsto (fun i => κ * h i) l (𝓝 0) := by simpa using h0.const_mul κ
  have A := (taylor_bigO 5 hf x).comp_tendsto tk
  have B : ((fun t : ℝ => t ^ 5) ∘ fun i => κ * h i) =O[l] fun i => h i ^ 5 := by
    have : ((fun t : ℝ => t ^ 5) ∘ fun i => κ * h i) = fun i => κ ^ 5 * h i ^ 5 := by funext i; simp only [Function.comp]; ring
    rw [this]; exact (isBigO_refl _ _).const_mul_left _
  refine (A.trans B).congr_left fun i => ?_
  simp only [Function.comp]
  congr 1
  exact Finset.sum_congr rfl fun n _ => by ring

theorem expands_avg (hf : ContDiff ℝ 5 f) (h0 : Tendsto h l (𝓝 0)) (hp : ∀ᶠ i in l, 0 < h i) (k : ℤ) :
    Expands l h (taylorCoef f x) (fun n => (((k:ℝ) + 1/2) ^ (n + 1) - ((k:ℝ) - 1/2) ^ (n + 1)) / (n + 1)) (fun i => cellAvg f x (h i) k) := by
  set F : ℝ → ℝ := fun u => ∫ y in x..u, f y with hF
  have dF : ∀ u, HasDerivAt F (f u) u := fun u =>
    intervalIntegral.integral_hasDerivAt_right (hf.continuous.intervalIntegrable _ _) (hf.continuous.stronglyMeasurableAtFilter _ _) hf.continuous.continuousAt
  have dF' : deriv F = f := funext fun u => (dF u).deriv
  have cF : ContDiff ℝ 6 F := by
    have : ContDiff ℝ (5 + 1) F := contDiff_succ_iff_deriv.2 ⟨fun u => (dF u).differentiableAt, by simp, by rw [dF']; exact hf⟩
    exact this
  have coef : ∀ n, taylorCoef F x (n + 1) = taylorCoef f x n / (n + 1) := fun n => by
    unfold taylorCoef
    rw [iteratedDeriv_succ', dF', Nat.factorial_succ]
    push_cast
    rw [div_div, mul_comm ((n:ℝ) + 1)]
  have F0 : taylorCoef F x 0 = 0 := by unfold taylorCoef; simp [hF]
  have T : ∀ κ : ℝ, (fun i => F (x + κ * h i) - ∑ n ∈ Finset.range 5, taylorCoef f x n / (n + 1) * (κ * h i) ^ (n + 1)) =O[l] fun i => h i ^ 6 := fun κ => by
    have tk : Tendsto (fun i => κ * h i) l (𝓝 0) := by simpa using h0.const_mul κ
    have A := (taylor_bigO 6 cF x).comp_tendsto tk
    have B : ((fun t : ℝ => t ^ 6) ∘ fun i => κ * h i) =O[l] fun i => h i ^ 6 := by
      have : ((fun t : ℝ => t ^ 6) ∘ fun i => κ * h i) = fun i => κ ^ 6 * h i ^ 6 := by funext i; simp only [Function.comp]; ring
      rw [this]; exact (isBigO_refl _ _).const_mul_left _
    refine (A.trans B).congr_left fun i => ?_
    simp only [Function.comp]
    rw [Finset.sum_range_succ' _ 5, F0, zero_mul, add_zero]
    simp only [coef]
  have D := (T (k + 1/2)).sub (T (k - 1/2))
  obtain ⟨C, hC⟩ := D.bound
  refine IsBigO.of_bound C ?_
  filter_upwards [hC, hp] with i hi hpi
  have e : cellAvg f x (h i) k = (F (x + (k + 1/2) * h i) - F (x + (k - 1/2) * h i)) / h i := by
    unfold cellAvg
    rw [hF]
    simp only
    rw [intervalIntegral.integral_interval_sub_left (hf.continuous.intervalIntegrable _ _) (hf.continuous.intervalIntegrable _ _)]
  rw [Real.norm_of_nonneg (by positivity : (0:ℝ) ≤ h i ^ 6), Real.norm_eq_abs] at hi
  rw [Real.norm_of_nonneg (by positivity : (0:ℝ) ≤ h i ^ 5), Real.norm_eq_abs, e]
  refine le_of_mul_le_mul_right ?_ hpi
  rw [← abs_of_pos hpi, ← abs_mul, abs_of_pos hpi]
  refine le_of_eq_of_le ?_ (hi.trans_eq (by ring))
  congr 1
  rw [sub_mul, div_mul_cancel₀ _ hpi.ne']
  simp only [Finset.sum_range_succ, Finset.sum_range_zero]
  push_cast
  ring

theorem ramp_point (hf : ContDiff ℝ 5 f) (hx : deriv f x ≠ 0) (h0 : Tendsto h l (𝓝 0)) :
    Ramp l h (fun i => cellPoint f x (h i) (-2)) (fun i => cellPoint f x (h i) (-1)) (fun i => cellPoint f x (h i) 0) (fun i => cellPoint f x (h i) 1)
      (fun i => cellPoint f x (h i) 2) (deriv f x) := by
  have E : ∀ k : ℤ, Expands l h (taylorCoef f x) (fun n => (k:ℝ) ^ n) (fun i => cellPoint f x (h i) k) := fun k => expands_point hf h0 k
  have a1 : taylorCoef f x 1 = deriv f x := by simp [taylorCoef]
  refine ⟨hx, ?_, ?_, ?_, ?_, ?_, ?_, ?_⟩
  · refine (((E 1).sub (E 0)).lead h0 1 (by norm_num) fun n hn => ?_).congr_left fun i => by rw [a1]; norm_num
    interval_cases n; norm_num
  · refine (((E (-2)).sub ((E (-1)).smul 2)).add (E 0)).order h0 2 (by norm_num) fun n hn => ?_
    interval_cases n <;> norm_num
  · refine (((E (-1)).sub ((E 0).smul 2)).add (E 1)).order h0 2 (by norm_num) fun n hn => ?_
    interval_cases n <;> norm_num
  · refine (((E 0).sub ((E 1).smul 2)).add (E 2)).order h0 2 (by norm_num) fun n hn => ?_
    interval_cases n <;> norm_num
  · refine ((((E 1).sub ((E 0).smul 3)).add ((E (-1)).smul 3)).sub (E (-2))).order h0 3 (by norm_num) fun n hn => ?_
    interval_cases n <;> norm_num
  · refine ((((E 2).sub ((E 1).smul 3)).add ((E 0).smul 3)).sub (E (-1))).order h0 3 (by norm_num) fun n hn => ?_
    interval_cases n <;> norm_num
  · refine (((((E 2).sub ((E 1).smul 4)).add ((E 0).smul 6)).sub ((E (-1)).smul 4)).add (E (-2))).order h0 4 (by norm_num) fun n hn => ?_
    interval_cases n <;> norm_num

theorem ramp_avg (hf : ContDiff ℝ 5 f) (hx : deriv f x ≠ 0) (h0 : Tendsto h l (𝓝 0)) (hp : ∀ᶠ i in l, 0 < h i) :
    Ramp l h (fun i => cellAvg f x (h i) (-2)) (fun i => cellAvg f x (h i) (-1)) (fun i => cellAvg f x (h i) 0) (fun i => cellAvg f x (h i) 1)
      (fun i => cellAvg f x (h i) 2) (deriv f x) := by
  have E := fun k : ℤ => expands_avg (x := x) hf h0 hp k
  have a1 : taylorCoef f x 1 = deriv f x := by simp [taylorCoef]
  refine ⟨hx, ?_, ?_, ?_, ?_, ?_, ?_, ?_⟩
  · refine (((E 1).sub (E 0)).lead h0 1 (by norm_num) fun n hn => ?_).congr_left fun i => by rw [a1]; norm_num
    interval_cases n; norm_num
  · refine (((E (-2)).sub ((E (-1)).smul 2)).add (E 0)).order h0 2 (by norm_num) fun n hn => ?_
    interval_cases n <;> norm_num
  · refine (((E (-1)).sub ((E 0).smul 2)).add (E 1)).order h0 2 (by norm_num) fun n hn => ?_
    interval_cases n <;> norm_num
  · refine (((E 0).sub ((E 1).smul 2)).add (E 2)).order h0 2 (by norm_num) fun n hn => ?_
    interval_cases n <;> norm_num
  · refine ((((E 1).sub ((E 0).smul 3)).add ((E (-1)).smul 3)).sub (E (-2))).order h0 3 (by norm_num) fun n hn => ?_
    interval_cases n <;> norm_num
  · refine ((((E 2).sub ((E 1).smul 3)).add ((E 0).smul 3)).sub (E (-1))).order h0 3 (by norm_num) fun n hn => ?_
    interval_cases n <;> norm_num
  · refine (((((E 2).sub ((E 1).smul 4)).add ((E 0).smul 6)).sub ((E (-1)).smul 4)).add (E (-2))).order h0 4 (by norm_num) fun n hn => ?_
    interval_cases n <;> norm_num

/-- the linear fifth-order value of cell averages is the face value up to the fifth power. -/
theorem high_avg (hf : ContDiff ℝ 5 f) (h0 : Tendsto h l (𝓝 0)) (hp : ∀ᶠ i in l, 0 < h i) :
    (fun i => mp5High (cellAvg f x (h i) (-2)) (cellAvg f x (h i) (-1)) (cellAvg f x (h i) 0) (cellAvg f x (h i) 1) (cellAvg f x (h i) 2) - f (x + h i / 2)) =O[l] (fun i => h i ^ 5) ∧
    (fun i => mp5High (cellAvg f x (h i) 2) (cellAvg f x (h i) 1) (cellAvg f x (h i) 0) (cellAvg f x (h i) (-1)) (cellAvg f x (h i) (-2)) - f (x - h i / 2)) =O[l] (fun i => h i ^ 5) := by
  have E := fun k : ℤ => expands_avg (x := x) hf h0 hp k
  have Q := fun κ : ℝ => expands_point (x := x) hf h0 κ
  constructor
  · refine ((((((((E (-2)).smul (2/60)).sub ((E (-1)).smul (13/60))).add ((E 0).smul (47/60))).add ((E 1).smul (27/60))).sub ((E 2).smul (3/60))).sub (Q (1/2))).order h0 5 le_rfl fun n hn => ?_).congr_left
      fun i => ?_
    · interval_cases n <;> norm_num
    · unfold mp5High
      rw [show x + 1/2 * h i = x + h i / 2 by ring]
      ring
  · refine ((((((((E 2).smul (2/60)).sub ((E 1).smul (13/60))).add ((E 0).smul (47/60))).add ((E (-1)).smul (27/60))).sub ((E (-2)).smul (3/60))).sub (Q (-1/2))).order h0 5 le_rfl fun n hn => ?_).congr_left
      fun i => ?_
    · interval_cases n <;> norm_num
    · unfold mp5High
      rw [show x + -1/2 * h i = x - h i / 2 by ring]
      ring

/-- on point values the linear fifth-order value misses the face value by the second derivative over 24. -/
theorem high_point (hf : ContDiff ℝ 5 f) (h0 : Tendsto h l (𝓝 0)) :
    (fun i => mp5High (cellPoint f x (h i) (-2)) (cellPoint f x (h i) (-1)) (cellPoint f x (h i) 0) (cellPoint f x (h i) 1) (cellPoint f x (h i) 2)
      - (f (x + h i / 2) - iteratedDeriv 2 f x / 24 * h i ^ 2)) =O[l] (fun i => h i ^ 3) ∧
    (fun i => mp5High (cellPoint f x (h i) 2) (cellPoint f x (h i) 1) (cellPoint f x (h i) 0) (cellPoint f x (h i) (-1)) (cellPoint f x (h i) (-2))
      - (f (x - h i / 2) - iteratedDeriv 2 f x / 24 * h i ^ 2)) =O[l] (fun i => h i ^ 3) := by
  have E : ∀ k : ℤ, Expands l h (taylorCoef f x) (fun n => (k:ℝ) ^ n) (fun i => cellPoint f x (h i) k) := fun k => expands_point hf h0 k
  have Q := fun κ : ℝ => expands_point (x := x) hf h0 κ
  have a2 : taylorCoef f x 2 = iteratedDeriv 2 f x / 2 := by simp [taylorCoef]
  constructor
  · refine ((((((((E (-2)).smul (2/60)).sub ((E (-1)).smul (13/60))).add ((E 0).smul (47/60))).add ((E 1).smul (27/60))).sub ((E 2).smul (3/60))).sub (Q (1/2))).lead h0 2 (by norm_num) fun n hn => ?_).congr_left
      fun i => ?_
    · interval_cases n <;> norm_num
    · unfold mp5High
      rw [show x + 1/2 * h i = x + h i / 2 by ring, a2]
      push_cast
      ring
  · refine ((((((((E 2).smul (2/60)).sub ((E 1).smul (13/60))).add ((E 0).smul (47/60))).add ((E (-1)).smul (27/60))).sub ((E (-2)).smul (3/60))).sub (Q (-1/2))).lead h0 2 (by norm_num) fun n hn => ?_).congr_left
      fun i => ?_
    · interval_cases n <;> norm_num
    · unfold mp5High
      rw [show x + -1/2 * h i = x - h i / 2 by ring, a2]
      push_cast
      ring

theorem linear_avg (hf : ContDiff ℝ 5 f) (hx : deriv f x ≠ 0) (h0 : Tendsto h l (𝓝 0)) (hp : ∀ᶠ i in l, 0 < h i) :
    (fun i => (piecewiseLinear (cellAvg f x (h i) (-1)) (cellAvg f x (h i) 0) (cellAvg f x (h i) 1)).1 - (f (x + h i / 2) - iteratedDeriv 2 f x / 12 * h i ^ 2)) =O[l] (fun i => h i ^ 3) ∧
    (fun i => (piecewiseLinear (cellAvg f x (h i) (-1)) (cellAvg f x (h i) 0) (cellAvg f x (h i) 1)).2 - (f (x - h i / 2) - iteratedDeriv 2 f x / 12 * h i ^ 2)) =O[l] (fun i => h i ^ 3) := by
  have E := fun k : ℤ => expands_avg (x := x) hf h0 hp k
  have Q := fun κ : ℝ => expands_point (x := x) hf h0 κ
  have a2 : taylorCoef f x 2 = iteratedDeriv 2 f x / 2 := by simp [taylorCoef]
  have M := (ramp_avg hf hx h0 hp).linear h0 hp (3/2) le_rfl
  constructor
  · refine ((((E 0).add (((E 1).sub (E (-1))).smul (1/4))).sub (Q (1/2))).lead h0 2 (by norm_num) fun n hn => ?_).congr' ?_ EventuallyEq.rfl
    · interval_cases n <;> norm_num
    · filter_upwards [M] with i hi
      unfold piecewiseLinear
      simp only [hi, a2]
      rw [show x + 1/2 * h i = x + h i / 2 by ring]
      push_cast
      ring
  · refine ((((E 0).sub (((E 1).sub (E (-1))).smul (1/4))).sub (Q (-1/2))).lead h0 2 (by norm_num) fun n hn => ?_).congr' ?_ EventuallyEq.rfl
    · interval_cases n <;> norm_num
    · filter_upwards [M] with i hi
      unfold piecewiseLinear
      simp only [hi, a2]
      rw [show x + -1/2 * h i = x - h i / 2 by ring]
      push_cast
      ring

theorem linear_point (hf : ContDiff ℝ 5 f) (hx : deriv f x ≠ 0) (h0 : Tendsto h l (𝓝 0)) (hp : ∀ᶠ i in l, 0 < h i) :
    (fun i => (piecewiseLinear (cellPoint f x (h i) (-1)) (cellPoint f x (h i) 0) (cellPoint f x (h i) 1)).1 - (f (x + h i / 2) - iteratedDeriv 2 f x / 8 * h i ^ 2)) =O[l] (fun i => h i ^ 3) ∧
    (fun i => (piecewiseLinear (cellPoint f x (h i) (-1)) (cellPoint f x (h i) 0) (cellPoint f x (h i) 1)).2 - (f (x - h i / 2) - iteratedDeriv 2 f x / 8 * h i ^ 2)) =O[l] (fun i => h i ^ 3) := by
  have E : ∀ k : ℤ, Expands l h (taylorCoef f x) (fun n => (k:ℝ) ^ n) (fun i => cellPoint f x (h i) k) := fun k => expands_point hf h0 k
  have Q := fun κ : ℝ => expands_point (x := x) hf h0 κ
  have a2 : taylorCoef f x 2 = iteratedDeriv 2 f x / 2 := by simp [taylorCoef]
  have M := (ramp_point hf hx h0).linear h0 hp (3/2) le_rfl
  constructor
  · refine ((((E 0).add (((E 1).sub (E (-1))).smul (1/4))).sub (Q (1/2))).lead h0 2 (by norm_num) fun n hn => ?_).congr' ?_ EventuallyEq.rfl
    · interval_cases n <;> norm_num
    · filter_upwards [M] with i hi
      unfold piecewiseLinear
      simp only [hi, a2]
      rw [show x + 1/2 * h i = x + h i / 2 by ring]
      push_cast
      ring
  · refine ((((E 0).sub (((E 1).sub (E (-1))).smul (1/4))).sub (Q (-1/2))).lead h0 2 (by norm_num) fun n hn => ?_).congr' ?_ EventuallyEq.rfl
    · interval_cases n <;> norm_num
    · filter_upwards [M] with i hi
      unfold piecewiseLinear
      simp only [hi, a2]
      rw [show x + -1/2 * h i = x - h i / 2 by ring]
      push_cast
      ring

/-- WENO5-Z and MP5 on any ramp whose linear fifth-order values are known. -/
theorem Ramp.faces {q0 q1 q2 q3 q4 : ι → ℝ} {s : ℝ} (R : Ramp l h q0 q1 q2 q3 q4 s) (h0 : Tendsto h l (𝓝 0)) (hp : ∀ᶠ i in l, 0 < h i) {eps : ι → ℝ} (he : ∀ᶠ i in l, 0 < eps i ∧ eps i ≤ 1)
    {epsm : ℝ} (hm : 0 ≤ epsm) {m : ℕ} (hm5 : m ≤ 5) {L Rt : ι → ℝ}
    (hL : (fun i => mp5High (q0 i) (q1 i) (q2 i) (q3 i) (q4 i) - L i) =O[l] fun i => h i ^ m) (hR : (fun i => mp5High (q4 i) (q3 i) (q2 i) (q1 i) (q0 i) - Rt i) =O[l] fun i => h i ^ m) :
    (fun i => (weno5z (eps i) (q0 i) (q1 i) (q2 i) (q3 i) (q4 i)).1 - L i) =O[l] (fun i => h i ^ m + eps i * h i ^ 2) ∧
    (fun i => (weno5z (eps i) (q0 i) (q1 i) (q2 i) (q3 i) (q4 i)).2 - Rt i) =O[l] (fun i => h i ^ m + eps i * h i ^ 2) ∧
    (fun i => (Recon.mp5 epsm (q0 i) (q1 i) (q2 i) (q3 i) (q4 i)).1 - L i) =O[l] (fun i => h i ^ m) ∧
    (fun i => (Recon.mp5 epsm (q0 i) (q1 i) (q2 i) (q3 i) (q4 i)).2 - Rt i) =O[l] (fun i => h i ^ m) := by
  have g1 : (fun i => h i ^ m) =O[l] fun i => h i ^ m + eps i * h i ^ 2 := IsBigO.of_bound 1 (by
    filter_upwards [hp, he] with i hpi hei
    have := hei.1
    have : 0 < eps i * h i ^ 2 := by positivity
    rw [Real.norm_of_nonneg (by positivity), Real.norm_of_nonneg (by positivity)]; linarith)
  have g2 : (fun i => h i ^ 5 + eps i * h i ^ 2) =O[l] fun i => h i ^ m + eps i * h i ^ 2 := by
    refine ((pow_bigO h0 hm5).trans g1).add (IsBigO.of_bound 1 ?_)
    filter_upwards [hp, he] with i hpi hei
    have := hei.1
    have : 0 < h i ^ m := by positivity
    rw [Real.norm_of_nonneg (by positivity), Real.norm_of_nonneg (by positivity)]; linarith
  refine ⟨?_, ?_, ?_, ?_⟩
  · exact (((R.weno h0 hp he).trans g2).add (hL.trans g1)).congr_left fun i => by ring
  · refine (((R.reverse.weno h0 hp he).trans g2).add (hR.trans g1)).congr_left fun i => ?_
    rw [(recon_mirror (eps i) epsm (q0 i) (q1 i) (q2 i) (q3 i) (q4 i)).2.1]
    simp only [Prod.fst_swap]
    ring
  · refine hL.congr' ?_ EventuallyEq.rfl
    filter_upwards [R.mp5 h0 hp] with i hi
    simp only [Recon.mp5, hi epsm hm]
  · refine hR.congr' ?_ EventuallyEq.rfl
    filter_upwards [R.reverse.mp5 h0 hp] with i hi
    simp only [Recon.mp5, hi epsm hm]

end

/-! ### The statements -/

/-- cell widths going to zero from above, together with any regularisation up to one. -/
theorem uniform_of_bigO {u v : ℝ × ℝ → ℝ} (hv : ∀ h eps, 0 < h → 0 < eps → 0 ≤ v (h, eps))
    (H : u =O[(𝓝[>] 0) ×ˢ 𝓟 (Set.Ioc 0 1)] v) :
    ∃ C, ∀ᶠ h in 𝓝[>] (0:ℝ), ∀ eps, 0 < eps → eps ≤ 1 → |u (h, eps)| ≤ C * v (h, eps) := by
  obtain ⟨C, hC⟩ := H.bound
  rw [eventually_prod_principal_iff] at hC
  refine ⟨C, ?_⟩
  filter_upwards [hC, self_mem_nhdsWithin] with h hh hp eps e0 e1
  have := hh eps ⟨e0, e1⟩
  rwa [Real.norm_eq_abs, Real.norm_of_nonneg (hv h eps hp e0)] at this

/-- **C157 (cell averages)**.  Let `f` be five times continuously differentiable with `f' x ≠ 0`.  From the averages of `f` over the five cells of width `h` around `x`,
WENO5-Z returns the two face values `f (x ± h/2)` up to `C * (h ^ 5 + eps * h ^ 2)`, MP5 up to `C * h ^ 5`, and the limited linear reconstruction up to
`-f'' h ^ 2 / 12`, with one `C` for all small `h` and all regularisations `eps`. -/
theorem recon_order (f : ℝ → ℝ) (hf : ContDiff ℝ 5 f) (x : ℝ) (hx : deriv f x ≠ 0) (epsm : ℝ) (hm : 0 ≤ epsm) :
    ∃ C δ : ℝ, 0 < δ ∧ ∀ h eps : ℝ, 0 < h → h < δ → 0 < eps → eps ≤ 1 →
      let q := cellAvg f x h
      let weno := weno5z eps (q (-2)) (q (-1)) (q 0) (q 1) (q 2)
      let mp := mp5 epsm (q (-2)) (q (-1)) (q 0) (q 1) (q 2)
      let lin := piecewiseLinear (q (-1)) (q 0) (q 1)
      (|weno.1 - f (x + h / 2)| ≤ C * (h ^ 5 + eps * h ^ 2) ∧ |weno.2 - f (x - h / 2)| ≤ C * (h ^ 5 + eps * h ^ 2)) ∧
      (|mp.1 - f (x + h / 2)| ≤ C * h ^ 5 ∧ |mp.2 - f (x - h / 2)| ≤ C * h ^ 5) ∧
      (|lin.1 - (f (x + h / 2) - iteratedDeriv 2 f x / 12 * h ^ 2)| ≤ C * h ^ 3 ∧ |lin.2 - (f (x - h / 2) - iteratedDeriv 2 f x / 12 * h ^ 2)| ≤ C * h ^ 3) := by
  have h0 : Tendsto (fun p : ℝ × ℝ => p.1) ((𝓝[>] 0) ×ˢ 𝓟 (Set.Ioc (0:ℝ) 1)) (𝓝 0) := tendsto_fst.mono_right nhdsWithin_le_nhds
  have hp : ∀ᶠ p in (𝓝[>] (0:ℝ)) ×ˢ 𝓟 (Set.Ioc (0:ℝ) 1), 0 < p.1 := tendsto_fst.eventually (self_mem_nhdsWithin : ∀ᶠ h in 𝓝[>] (0:ℝ), 0 < h)
  have he : ∀ᶠ p in (𝓝[>] (0:ℝ)) ×ˢ 𝓟 (Set.Ioc (0:ℝ) 1), 0 < p.2 ∧ p.2 ≤ 1 := tendsto_snd.eventually (mem_principal_self _)
  obtain ⟨w1, w2, m1, m2⟩ := (ramp_avg hf hx h0 hp).faces h0 hp he hm le_rfl (high_avg (x := x) hf h0 hp).1 (high_avg (x := x) hf h0 hp).2
  obtain ⟨l1, l2⟩ := linear_avg hf hx h0 hp
  obtain ⟨A, hA⟩ := uniform_of_bigO (fun h eps a b => by simp only; positivity) w1
  obtain ⟨B, hB⟩ := uniform_of_bigO (fun h eps a b => by simp only; positivity) w2
  obtain ⟨D, hD⟩ := uniform_of_bigO (fun h _ a b => pow_nonneg (le_of_lt a) 5) m1
  obtain ⟨E, hE⟩ := uniform_of_bigO (fun h _ a b => pow_nonneg (le_of_lt a) 5) m2
  obtain ⟨F, hF⟩ := uniform_of_bigO (fun h _ a b => pow_nonneg (le_of_lt a) 3) l1
  obtain ⟨G, hG⟩ := uniform_of_bigO (fun h _ a b => pow_nonneg (le_of_lt a) 3) l2
  obtain ⟨δ, hδ, hall⟩ := (mem_nhdsGT_iff_exists_Ioo_subset).1 ((((((hA.and hB).and hD).and hE).and hF).and hG))
  refine ⟨|A| + |B| + |D| + |E| + |F| + |G|, δ, hδ, fun h eps p1 p2 e0 e1 => ?_⟩
  obtain ⟨⟨⟨⟨⟨HA, HB⟩, HD⟩, HE⟩, HF⟩, HG⟩ := hall (show h ∈ Set.Ioo 0 δ from ⟨p1, p2⟩)
  have nA := abs_nonneg A; have nB := abs_nonneg B; have nD := abs_nonneg D; have nE := abs_nonneg E; have nF := abs_nonneg F; have nG := abs_nonneg G
  have up : ∀ {u v c : ℝ}, 0 ≤ v → u ≤ c * v → c ≤ |A| + |B| + |D| + |E| + |F| + |G| → u ≤ (|A| + |B| + |D| + |E| + |F| + |G|) * v := fun hv h1 h2 => h1.trans (mul_le_mul_of_nonneg_right h2 hv)
  have hw : 0 ≤ h ^ 5 + eps * h ^ 2 := by positivity
  have h5 : 0 ≤ h ^ 5 := by positivity
  have h3 : 0 ≤ h ^ 3 := by positivity
  exact ⟨⟨up hw (HA eps e0 e1) (by linarith [le_abs_self A]), up hw (HB eps e0 e1) (by linarith [le_abs_self B])⟩,
    ⟨up h5 (HD eps e0 e1) (by linarith [le_abs_self D]), up h5 (HE eps e0 e1) (by linarith [le_abs_self E])⟩,
    ⟨up h3 (HF eps e0 e1) (by linarith [le_abs_self F]), up h3 (HG eps e0 e1) (by linarith [le_abs_self G])⟩⟩

/-- **C157 (point values)**.  The same with the values of `f` at the cell centres in place of its averages: every method misses the face values by a multiple of
`f'' h ^ 2`, namely one 24th for WENO5-Z and MP5 and one 8th for the linear reconstruction. -/
theorem recon_point_order (f : ℝ → ℝ) (hf : ContDiff ℝ 5 f) (x : ℝ) (hx : deriv f x ≠ 0) (epsm : ℝ) (hm : 0 ≤ epsm) :
    ∃ C δ : ℝ, 0 < δ ∧ ∀ h eps : ℝ, 0 < h → h < δ → 0 < eps → eps ≤ 1 →
      let q := cellPoint f x h
      let weno := weno5z eps (q (-2)) (q (-1)) (q 0) (q 1) (q 2)
      let mp := mp5 epsm (q (-2)) (q (-1)) (q 0) (q 1) (q 2)
      let lin := piecewiseLinear (q (-1)) (q 0) (q 1)
      (|weno.1 - (f (x + h / 2) - iteratedDeriv 2 f x / 24 * h ^ 2)| ≤ C * (h ^ 3 + eps * h ^ 2) ∧ |weno.2 - (f (x - h / 2) - iteratedDeriv 2 f x / 24 * h ^ 2)| ≤ C * (h ^ 3 + eps * h ^ 2)) ∧
      (|mp.1 - (f (x + h / 2) - iteratedDeriv 2 f x / 24 * h ^ 2)| ≤ C * h ^ 3 ∧ |mp.2 - (f (x - h / 2) - iteratedDeriv 2 f x / 24 * h ^ 2)| ≤ C * h ^ 3) ∧
      (|lin.1 - (f (x + h / 2) - iteratedDeriv 2 f x / 8 * h ^ 2)| ≤ C * h ^ 3 ∧ |lin.2 - (f (x - h / 2) - iteratedDeriv 2 f x / 8 * h ^ 2)| ≤ C * h ^ 3) := by
  have h0 : Tendsto (fun p : ℝ × ℝ => p.1) ((𝓝[>] 0) ×ˢ 𝓟 (Set.Ioc (0:ℝ) 1)) (𝓝 0) := tendsto_fst.mono_right nhdsWithin_le_nhds
  have hp : ∀ᶠ p in (𝓝[>] (0:ℝ)) ×ˢ 𝓟 (Set.Ioc (0:ℝ) 1), 0 < p.1 := tendsto_fst.eventually (self_mem_nhdsWithin : ∀ᶠ h in 𝓝[>] (0:ℝ), 0 < h)
  have he : ∀ᶠ p in (𝓝[>] (0:ℝ)) ×ˢ 𝓟 (Set.Ioc (0:ℝ) 1), 0 < p.2 ∧ p.2 ≤ 1 := tendsto_snd.eventually (mem_principal_self _)
  obtain ⟨w1, w2, m1, m2⟩ := (ramp_point hf hx h0).faces h0 hp he hm (by norm_num) (high_point (x := x) hf h0).1 (high_point (x := x) hf h0).2
  obtain ⟨l1, l2⟩ := linear_point hf hx h0 hp
  obtain ⟨A, hA⟩ := uniform_of_bigO (fun h eps a b => by simp only; positivity) w1
  obtain ⟨B, hB⟩ := uniform_of_bigO (fun h eps a b => by simp only; positivity) w2
  obtain ⟨D, hD⟩ := uniform_of_bigO (fun h _ a b => pow_nonneg (le_of_lt a) 3) m1
  obtain ⟨E, hE⟩ := uniform_of_bigO (fun h _ a b => pow_nonneg (le_of_lt a) 3) m2
  obtain ⟨F, hF⟩ := uniform_of_bigO (fun h _ a b => pow_nonneg (le_of_lt a) 3) l1
  obtain ⟨G, hG⟩ := uniform_of_bigO (fun h _ a b => pow_nonneg (le_of_lt a) 3) l2
  obtain ⟨δ, hδ, hall⟩ := (mem_nhdsGT_iff_exists_Ioo_subset).1 ((((((hA.and hB).and hD).and hE).and hF).and hG))
  refine ⟨|A| + |B| + |D| + |E| + |F| + |G|, δ, hδ, fun h eps p1 p2 e0 e1 => ?_⟩
  obtain ⟨⟨⟨⟨⟨HA, HB⟩, HD⟩, HE⟩, HF⟩, HG⟩ := hall (show h ∈ Set.Ioo 0 δ from ⟨p1, p2⟩)
  have nA := abs_nonneg A; have nB := abs_nonneg B; have nD := abs_nonneg D; have nE := abs_nonneg E; have nF := abs_nonneg F; have nG := abs_nonneg G
  have up : ∀ {u v c : ℝ}, 0 ≤ v → u ≤ c * v → c ≤ |A| + |B| + |D| + |E| + |F| + |G| → u ≤ (|A| + |B| + |D| + |E| + |F| + |G|) * v := fun hv h1 h2 => h1.trans (mul_le_mul_of_nonneg_right h2 hv)
  have hw : 0 ≤ h ^ 3 + eps * h ^ 2 := by positivity
  have h3 : 0 ≤ h ^ 3 := by positivity
  exact ⟨⟨up hw (HA eps e0 e1) (by linarith [le_abs_self A]), up hw (HB eps e0 e1) (by linarith [le_abs_self B])⟩,
    ⟨up h3 (HD eps e0 e1) (by linarith [le_abs_self D]), up h3 (HE eps e0 e1) (by linarith [le_abs_self E])⟩,
    ⟨up h3 (HF eps e0 e1) (by linarith [le_abs_self F]), up h3 (HG eps e0 e1) (by linarith [le_abs_self G])⟩⟩

/-- **C157 (extrema)**.  MP5 needs no slope: the absolute threshold of its limiter lies above every difference of a smooth profile on small cells, so it is of fifth order at extrema too. -/
theorem mp5_order_everywhere (f : ℝ → ℝ) (hf : ContDiff ℝ 5 f) (x : ℝ) (epsm : ℝ) (hm : 0 < epsm) :
    (fun h => (mp5 epsm (cellAvg f x h (-2)) (cellAvg f x h (-1)) (cellAvg f x h 0) (cellAvg f x h 1) (cellAvg f x h 2)).1 - f (x + h / 2)) =O[𝓝[>] 0] (fun h => h ^ 5) ∧
    (fun h => (mp5 epsm (cellAvg f x h (-2)) (cellAvg f x h (-1)) (cellAvg f x h 0) (cellAvg f x h 1) (cellAvg f x h 2)).2 - f (x - h / 2)) =O[𝓝[>] 0] (fun h => h ^ 5) := by
  have h0 : Tendsto (fun h : ℝ => h) (𝓝[>] 0) (𝓝 0) := tendsto_id.mono_right nhdsWithin_le_nhds
  have hp : ∀ᶠ h in 𝓝[>] (0:ℝ), 0 < h := self_mem_nhdsWithin
  have E := fun k : ℤ => expands_avg (x := x) hf h0 hp k
  obtain ⟨M, M0, hM⟩ : ∃ M : ℝ, 0 < M ∧ 21 * M ^ 2 ≤ 16 * epsm := by
    refine ⟨√(16 * epsm / 21), Real.sqrt_pos.2 (by positivity), ?_⟩
    rw [Real.sq_sqrt (by positivity)]; linarith
  have D : ∀ k : ℤ, ∀ᶠ h in 𝓝[>] (0:ℝ), |cellAvg f x h k - cellAvg f x h 0| ≤ M := fun k => by
    have O : (fun h => cellAvg f x h k - cellAvg f x h 0) =O[𝓝[>] 0] fun h => h ^ 1 := ((E k).sub (E 0)).order h0 1 (by norm_num) fun n hn => by
      interval_cases n; norm_num
    have T : Tendsto (fun h => cellAvg f x h k - cellAvg f x h 0) (𝓝[>] 0) (𝓝 0) := O.trans_tendsto (by simpa using h0)
    have := T.abs
    rw [abs_zero] at this
    exact (this.eventually (gt_mem_nhds M0)).mono fun _ h => h.le
  constructor
  · refine (high_avg (x := x) hf h0 hp).1.congr' ?_ EventuallyEq.rfl
    filter_upwards [D (-2), D (-1), D 1, D 2] with h d1 d2 d3 d4
    unfold mp5
    simp only
    rw [mp5_limiter_off epsm M _ _ _ _ _ hM d1 d2 d3 d4]
    rfl
  · refine (high_avg (x := x) hf h0 hp).2.congr' ?_ EventuallyEq.rfl
    filter_upwards [D (-2), D (-1), D 1, D 2] with h d1 d2 d3 d4
    unfold mp5
    simp only
    rw [mp5_limiter_off epsm M _ _ _ _ _ hM d4 d3 d2 d1]
    rfl

/-- the sine at an eighth of its period meets the hypotheses, with a nonzero second derivative. -/
theorem ex_recon_order : ContDiff ℝ 5 Real.sin ∧ deriv Real.sin (Real.pi / 4) ≠ 0 ∧ iteratedDeriv 2 Real.sin (Real.pi / 4) ≠ 0 := by
  have s2 : (0:ℝ) < √2 := by positivity
  refine ⟨Real.contDiff_sin, ?_, ?_⟩
  · rw [Real.deriv_sin, Real.cos_pi_div_four]; positivity
  · rw [iteratedDeriv_succ, iteratedDeriv_one, Real.deriv_sin, Real.deriv_cos, Real.sin_pi_div_four]
    have : 0 < √2 / 2 := by positivity
    linarith [this]

end Phoebus.Recon
