import Verif.Closure.Props
import Verif.C2P.Bounds
import Mathlib.Topology.Order.Basic
import Mathlib.Analysis.SpecificLimits.Basic

/-!
# The implicit exchange between radiation and gas: small steps, large steps, positivity (C154)
-/
namespace Phoebus.Closure
open Geom Rel Robust LinAlg Finset Filter Topology

/-! ### Specification -/

/-- rate at which the gas gives energy and momentum to the radiation: absorption `aJ`, total opacity `aH` per unit coordinate time, emission `JBB`; `J`, `H` comoving energy density and flux. -/
noncomputable def exchangeTerm (G : ADM ℝ) (v : Vec) (JBB aJ aH J : ℝ) (H : Vec) : ℝ × Vec :=
  (W G v * aJ * (JBB - J) - aH * cc v H, fun i => W G v * aJ * lower G v i * (JBB - J) - aH * H i)

/-- `(J, H)` are the comoving moments of a state with lab-frame moments `(E, F)`. -/
def Comoving (G : ADM ℝ) (v : Vec) (Pi : Tens2) (E : ℝ) (F : Vec) (J : ℝ) (H : Vec) : Prop := prim2con false G v Pi J H = (E, F)

/-! ### Solution of the system -/

/-- determinant of the system. -/
noncomputable def relaxDet (w tauJ tauH : ℝ) : ℝ := (2 * w ^ 2 + 1) / (3 * w) + tauH + tauJ + tauH * tauJ / w

theorem relaxDet_pos {w tauJ tauH : ℝ} (hw : 0 < w) (hJ : 0 ≤ tauJ) (hH : 0 ≤ tauH) : 0 < relaxDet w tauJ tauH := by unfold relaxDet; positivity

theorem be_solve {G : ADM ℝ} (hG : G.Valid) {v : Vec} (hs : Slow G v) {Es : ℝ} {Fs : Vec} {Pi : Tens2} (h0 : vvPi G v Pi = 0) {JBB tauJ tauH J : ℝ} {H : Vec}
    (h : BackwardEuler false G v Pi Es Fs JBB tauJ tauH J H) :
    relaxDet (W G v) tauJ tauH * J = (Es + W G v * tauJ * JBB) * (2 * W G v - 1 / W G v + tauH) - (cc v Fs + (W G v ^ 2 - 1) / W G v * tauJ * JBB) * (2 * W G v + tauH) ∧
    relaxDet (W G v) tauJ tauH * cc v H = (cc v Fs + (W G v ^ 2 - 1) / W G v * tauJ * JBB) * ((4 * W G v ^ 2 - 1) / 3 + W G v * tauJ) -
      (Es + W G v * tauJ * JBB) * (4 / 3 * (W G v ^ 2 - 1) + (W G v - 1 / W G v) * tauJ) ∧
    ∀ i, (W G v + tauH) * H i = Fs i + W G v * tauJ * lower G v i * (JBB - J) - 4 * W G v ^ 2 / 3 * lower G v i * J - W G v * lower G v i * cc v H - J * covVPi G v Pi i := by
  have hw := W_pos (G := G) (v := v)
  have hw' := hw.ne'
  obtain ⟨hE, hF⟩ := h
  have hvF : cc v (prim2con false G v Pi J H).2 = cc v Fs + W G v * tauJ * G.dot3 v v * (JBB - J) - tauH * cc v H := by
    rw [← cc_lower]
    have : (prim2con false G v Pi J H).2 = fun i => Fs i + (W G v * tauJ * lower G v i * (JBB - J) - tauH * H i) := funext hF
    rw [this]; simp only [cc, Fin.sum_univ_three]; ring
  rw [cc_F hG hs, h0, dot_W hs] at hvF
  simp only [prim2con, h0, W2, Bool.false_eq_true, if_false] at hE
  set w := W G v
  set z := cc v H
  have r0 : ((4 * w ^ 2 - 1) / 3 + w * tauJ) * J + (2 * w + tauH) * z = Es + w * tauJ * JBB := by linear_combination hE
  have r1 : (4 / 3 * (w ^ 2 - 1) + (w - 1 / w) * tauJ) * J + (2 * w - 1 / w + tauH) * z = cc v Fs + (w ^ 2 - 1) / w * tauJ * JBB := by
    have : w * tauJ * ((w ^ 2 - 1) / w ^ 2) * (JBB - J) = (w ^ 2 - 1) / w * tauJ * JBB - (w - 1 / w) * tauJ * J := by field_simp
    rw [this] at hvF
    linear_combination hvF
  refine ⟨?_, ?_, fun i => ?_⟩
  · rw [← r0, ← r1]; unfold relaxDet; field_simp; ring
  · rw [← r0, ← r1]; unfold relaxDet; field_simp; ring
  · have h3 := hF i
    simp only [prim2con, W2] at h3
    linear_combination h3

/-! ### Large steps -/

/-- deviations from equilibrium. -/
theorem be_deviation {G : ADM ℝ} (hG : G.Valid) {v : Vec} (hs : Slow G v) {Es : ℝ} {Fs : Vec} {Pi : Tens2} (h0 : vvPi G v Pi = 0) {JBB tauJ tauH J : ℝ} {H : Vec}
    (h : BackwardEuler false G v Pi Es Fs JBB tauJ tauH J H) :
    relaxDet (W G v) tauJ tauH * (J - JBB) = (Es - (4 * W G v ^ 2 - 1) / 3 * JBB) * (2 * W G v - 1 / W G v + tauH) - (cc v Fs - 4 / 3 * (W G v ^ 2 - 1) * JBB) * (2 * W G v + tauH) ∧
    relaxDet (W G v) tauJ tauH * cc v H = (cc v Fs - 4 / 3 * (W G v ^ 2 - 1) * JBB) * ((4 * W G v ^ 2 - 1) / 3 + W G v * tauJ) -
      (Es - (4 * W G v ^ 2 - 1) / 3 * JBB) * (4 / 3 * (W G v ^ 2 - 1) + (W G v - 1 / W G v) * tauJ) := by
  have hw' := (W_pos (G := G) (v := v)).ne'
  obtain ⟨a, b, _⟩ := be_solve hG hs h0 h
  constructor
  · rw [mul_sub, a]; unfold relaxDet; field_simp; ring
  · rw [b]; field_simp; ring

theorem relaxDet_lower {w tauJ tauH : ℝ} (hw : 1 ≤ w) (hJ : 0 ≤ tauJ) (hH : 0 ≤ tauH) : (1 + tauJ) * (1 + tauH) / (3 * w) ≤ relaxDet w tauJ tauH := by
  unfold relaxDet
  have hw0 : 0 < w := by linarith
  have e : (2 * w ^ 2 + 1) / (3 * w) + tauH + tauJ + tauH * tauJ / w - (1 + tauJ) * (1 + tauH) / (3 * w) =
      (2 * w ^ 2 + (3 * w - 1) * tauH + (3 * w - 1) * tauJ + 2 * (tauH * tauJ)) / (3 * w) := by field_simp; ring
  have : 0 ≤ (2 * w ^ 2 + (3 * w - 1) * tauH + (3 * w - 1) * tauJ + 2 * (tauH * tauJ)) / (3 * w) := by
    apply div_nonneg _ (by positivity)
    have h1 : 0 ≤ 3 * w - 1 := by linarith
    positivity
  linarith

theorem coeff_bounds {w t : ℝ} (hw1 : 1 ≤ w) (ht : 0 ≤ t) : |2 * w - 1 / w + t| ≤ 4 * w ^ 2 * (1 + t) ∧ |2 * w + t| ≤ 4 * w ^ 2 * (1 + t) ∧
    |4 / 3 * (w ^ 2 - 1) + (w - 1 / w) * t| ≤ 4 * w ^ 2 * (1 + t) ∧ |(4 * w ^ 2 - 1) / 3 + w * t| ≤ 4 * w ^ 2 * (1 + t) := by
  have hw : 0 < w := by linarith
  have i0 : 0 ≤ 1 / w := by positivity
  have i1 : 1 / w ≤ 1 := by rw [div_le_one hw]; exact hw1
  have hw2 : w ≤ w ^ 2 := by nlinarith
  have h1 : 1 ≤ w ^ 2 := by linarith
  have m1 : t ≤ w ^ 2 * t := by nlinarith
  have m2 : w * t ≤ w ^ 2 * t := mul_le_mul_of_nonneg_right hw2 ht
  have m3 : 0 ≤ 1 / w * t := by positivity
  have m4 : 0 ≤ w * t := by positivity
  have m5 : (w - 1 / w) * t = w * t - 1 / w * t := by ring
  have m6 : 1 / w * t ≤ w * t := mul_le_mul_of_nonneg_right (by linarith) ht
  refine ⟨?_, ?_, ?_, ?_⟩ <;> rw [abs_of_nonneg (by first | positivity | linarith)] <;> linarith

/-- bounds on the deviations that do not depend on the other optical depth. -/
theorem be_bounds {G : ADM ℝ} (hG : G.Valid) (hp : PosDef G) {v : Vec} (hs : Slow G v) (Es : ℝ) (Fs : Vec) {Pi : Tens2} (h0 : vvPi G v Pi = 0) (JBB : ℝ) :
    ∃ C, ∀ tauJ tauH, 0 ≤ tauJ → 0 ≤ tauH → ∀ J H, BackwardEuler false G v Pi Es Fs JBB tauJ tauH J H → |J - JBB| ≤ C / (1 + tauJ) ∧ ∀ i, |H i| ≤ C / (1 + tauH) := by
  have hw1 := W_ge_one hp hs
  set w := W G v with hwd
  have hw : 0 < w := by linarith
  have hw' := hw.ne'
  set e0 := Es - (4 * w ^ 2 - 1) / 3 * JBB with he0
  set e1 := cc v Fs - 4 / 3 * (w ^ 2 - 1) * JBB with he1
  set A := (|e0| + |e1|) * (4 * w ^ 2) * (3 * w) with hA
  have hA0 : 0 ≤ A := by positivity
  have key : ∀ tauJ tauH, 0 ≤ tauJ → 0 ≤ tauH → ∀ J H, BackwardEuler false G v Pi Es Fs JBB tauJ tauH J H → |J - JBB| ≤ A / (1 + tauJ) ∧ |cc v H| ≤ A / (1 + tauH) := by
    intro tauJ tauH hJ hH J H hBE
    obtain ⟨dJ, dz⟩ := be_deviation hG hs h0 hBE
    have hdet := relaxDet_lower hw1 hJ hH
    have hpos := relaxDet_pos hw hJ hH
    have bound : ∀ {x n t s : ℝ}, 0 ≤ t → 0 ≤ s → (1 + s) * (1 + t) / (3 * w) ≤ relaxDet w tauJ tauH → relaxDet w tauJ tauH * x = n → |n| ≤ (|e0| + |e1|) * (4 * w ^ 2) * (1 + t) → |x| ≤ A / (1 + s) := by
      intro x n t s ht hs' hd hx hn
      rw [le_div_iff₀ (by linarith)]
      have h2 : relaxDet w tauJ tauH * |x| = |n| := by rw [← hx, abs_mul, abs_of_pos hpos]
      have h3 : (1 + s) * (1 + t) / (3 * w) * |x| ≤ (|e0| + |e1|) * (4 * w ^ 2) * (1 + t) := le_trans (mul_le_mul_of_nonneg_right hd (abs_nonneg x)) (h2.le.trans hn)
      have h4 : (|x| * (1 + s)) * (1 + t) ≤ A * (1 + t) := by
        have := mul_le_mul_of_nonneg_right h3 (show 0 ≤ 3 * w by positivity)
        calc |x| * (1 + s) * (1 + t) = (1 + s) * (1 + t) / (3 * w) * |x| * (3 * w) := by field_simp
          _ ≤ _ := this
          _ = A * (1 + t) := by rw [hA]; ring
      exact le_of_mul_le_mul_right h4 (by linarith)
    have cmb : ∀ {a b K : ℝ}, 0 ≤ K → |a| ≤ K → |b| ≤ K → |e0 * a - e1 * b| ≤ (|e0| + |e1|) * K := by
      intro a b K hK ha hb
      calc |e0 * a - e1 * b| ≤ |e0 * a| + |e1 * b| := abs_sub _ _
        _ ≤ |e0| * K + |e1| * K := by rw [abs_mul, abs_mul]; exact add_le_add (mul_le_mul_of_nonneg_left ha (abs_nonneg _)) (mul_le_mul_of_nonneg_left hb (abs_nonneg _))
        _ = _ := by ring
    constructor
    · refine bound hH hJ hdet dJ ((cmb (K := 4 * w ^ 2 * (1 + tauH)) (by positivity) ?_ ?_).trans (le_of_eq (by ring)))
      · exact (coeff_bounds hw1 hH).1
      · exact (coeff_bounds hw1 hH).2.1
    · have hdet' : (1 + tauH) * (1 + tauJ) / (3 * w) ≤ relaxDet w tauJ tauH := by rw [mul_comm (1 + tauH)]; exact hdet
      have e : (cc v Fs - 4 / 3 * (w ^ 2 - 1) * JBB) * ((4 * w ^ 2 - 1) / 3 + w * tauJ) - (Es - (4 * w ^ 2 - 1) / 3 * JBB) * (4 / 3 * (w ^ 2 - 1) + (w - 1 / w) * tauJ) =
          e0 * (-(4 / 3 * (w ^ 2 - 1) + (w - 1 / w) * tauJ)) - e1 * (-((4 * w ^ 2 - 1) / 3 + w * tauJ)) := by rw [he0, he1]; ring
      refine bound hJ hH hdet' (dz.trans e) ((cmb (K := 4 * w ^ 2 * (1 + tauJ)) (by positivity) ?_ ?_).trans (le_of_eq (by ring)))
      · rw [abs_neg]; exact (coeff_bounds hw1 hJ).2.2.1
      · rw [abs_neg]; exact (coeff_bounds hw1 hJ).2.2.2
  -- all components of the flux
  set C : Fin 3 → ℝ := fun i => |Fs i| + w * |lower G v i| * A + 4 * w ^ 2 / 3 * |lower G v i| * (|JBB| + A) + w * |lower G v i| * A + (|JBB| + A) * |covVPi G v Pi i| with hC
  have hC0 : ∀ i, 0 ≤ C i := fun i => by simp only [hC]; positivity
  refine ⟨A + ∑ i, C i, fun tauJ tauH hJ hH J H hBE => ?_⟩
  obtain ⟨kJ, kz⟩ := key tauJ tauH hJ hH J H hBE
  have hsum : 0 ≤ ∑ i, C i := Finset.sum_nonneg fun i _ => hC0 i
  refine ⟨kJ.trans (by apply div_le_div_of_nonneg_right _ (by linarith); linarith), fun i => ?_⟩
  have hi := (be_solve hG hs h0 hBE).2.2 i
  have k1 : tauJ * |JBB - J| ≤ A := by
    rw [abs_sub_comm]
    rw [le_div_iff₀ (by linarith)] at kJ
    nlinarith [abs_nonneg (J - JBB)]
  have k2 : |J| ≤ |JBB| + A := by
    have h3 : |J - JBB| ≤ A := kJ.trans (div_le_self hA0 (by linarith))
    calc |J| = |JBB + (J - JBB)| := by ring_nf
      _ ≤ |JBB| + |J - JBB| := abs_add_le _ _
      _ ≤ _ := by linarith
  have k3 : |cc v H| ≤ A := kz.trans (div_le_self hA0 (by linarith))
  have k4 : (1 + tauH) * |H i| ≤ C i := by
    have h5 : (w + tauH) * |H i| = |Fs i + w * tauJ * lower G v i * (JBB - J) - 4 * w ^ 2 / 3 * lower G v i * J - w * lower G v i * cc v H - J * covVPi G v Pi i| := by
      have hwt : 0 < w + tauH := by linarith
      rw [← hi, abs_mul, abs_of_pos hwt]
    have h6 : (1 + tauH) * |H i| ≤ (w + tauH) * |H i| := mul_le_mul_of_nonneg_right (by linarith) (abs_nonneg _)
    rw [h5] at h6
    refine h6.trans ?_
    have t1 : |w * tauJ * lower G v i * (JBB - J)| ≤ w * |lower G v i| * A := by
      have : |w * tauJ * lower G v i * (JBB - J)| = w * |lower G v i| * (tauJ * |JBB - J|) := by
        rw [abs_mul, abs_mul, abs_mul, abs_of_pos hw, abs_of_nonneg hJ]; ring
      rw [this]; exact mul_le_mul_of_nonneg_left k1 (by positivity)
    have t2 : |4 * w ^ 2 / 3 * lower G v i * J| ≤ 4 * w ^ 2 / 3 * |lower G v i| * (|JBB| + A) := by
      rw [abs_mul, abs_mul, abs_of_nonneg (by positivity : 0 ≤ 4 * w ^ 2 / 3)]; exact mul_le_mul_of_nonneg_left k2 (by positivity)
    have t3 : |w * lower G v i * cc v H| ≤ w * |lower G v i| * A := by
      rw [abs_mul, abs_mul, abs_of_pos hw]; exact mul_le_mul_of_nonneg_left k3 (by positivity)
    have t4 : |J * covVPi G v Pi i| ≤ (|JBB| + A) * |covVPi G v Pi i| := by
      rw [abs_mul]; exact mul_le_mul_of_nonneg_right k2 (abs_nonneg _)
    simp only [hC]
    refine (abs_sub _ _).trans (add_le_add ((abs_sub _ _).trans (add_le_add ((abs_sub _ _).trans (add_le_add ((abs_add_le _ _).trans (add_le_add le_rfl t1)) t2)) t3)) t4)
  rw [le_div_iff₀ (by linarith), mul_comm]
  refine k4.trans ((Finset.single_le_sum (f := C) (fun j _ => hC0 j) (Finset.mem_univ i)).trans (by linarith))

/-- **C154, every step length**: the state the update leaves has comoving moments whose distance from thermal equilibrium is at most `C / (1 + tauJ)` in energy density and `C / (1 + tauH)` in flux, with `C`
depending on the state before only: no step is too long, opaque matter equilibrates completely, at any ratio of the opacities. -/
theorem update_relaxes {G : ADM ℝ} (hG : G.Valid) (hp : PosDef G) {v : Vec} (hs : Slow G v) (Es : ℝ) (Fs : Vec) {Pi : Tens2} (h0 : vvPi G v Pi = 0) (JBB : ℝ) :
    ∃ C, ∀ tauJ tauH, 0 ≤ tauJ → 0 ≤ tauH → ∃ J H,
      let d := linearSourceUpdate false G v Es Fs Pi JBB tauJ tauH
      Comoving G v Pi (Es + d.1) (fun i => Fs i + d.2 i) J H ∧ |J - JBB| ≤ C / (1 + tauJ) ∧ ∀ i, |H i| ≤ C / (1 + tauH) := by
  obtain ⟨C, hC⟩ := be_bounds hG hp hs Es Fs h0 JBB
  refine ⟨C, fun tauJ tauH hJ hH => ?_⟩
  obtain ⟨J, H, hBE, hE, hF⟩ := source_update_solves_partial false hG hp hs Es Fs Pi h0 JBB tauJ tauH hJ hH
  exact ⟨J, H, Prod.ext hE (funext hF), hC tauJ tauH hJ hH J H hBE⟩

/-! ### Positivity -/

/-- **C154, positivity**: a state whose flux does not exceed its energy keeps a nonnegative comoving energy density, at every step length and all opacities. -/
theorem update_positive {G : ADM ℝ} (hG : G.Valid) (hp : PosDef G) {v : Vec} (hs : Slow G v) {Es : ℝ} {Fs : Vec} {Pi : Tens2} (h0 : vvPi G v Pi = 0) {JBB tauJ tauH : ℝ}
    (hJ : 0 ≤ tauJ) (hH : 0 ≤ tauH) (hB : 0 ≤ JBB) (hE : 0 ≤ Es) (hF : ccov G Fs Fs ≤ Es ^ 2) :
    ∃ J H, let d := linearSourceUpdate false G v Es Fs Pi JBB tauJ tauH
      Comoving G v Pi (Es + d.1) (fun i => Fs i + d.2 i) J H ∧ 0 ≤ J := by
  obtain ⟨J, H, hBE, hE', hF'⟩ := source_update_solves_partial false hG hp hs Es Fs Pi h0 JBB tauJ tauH hJ hH
  refine ⟨J, H, Prod.ext hE' (funext hF'), ?_⟩
  have hw1 := W_ge_one hp hs
  have a := (be_solve hG hs h0 hBE).1
  have hdw := dot_W hs
  set w := W G v
  have hw : 0 < w := by linarith
  have hd0 := hp v
  set s := √(G.dot3 v v) with hsd
  have hs2 : s ^ 2 = G.dot3 v v := Real.sq_sqrt hd0
  have hs0 : 0 ≤ s := Real.sqrt_nonneg _
  have hws : w ^ 2 * (1 - s ^ 2) = 1 := by rw [hs2]; exact W_sq hs
  have hs1' : 0 < 1 - s ^ 2 := by
    by_contra hc
    have := mul_nonpos_of_nonneg_of_nonpos (sq_nonneg w) (not_lt.1 hc)
    linarith
  have hs1 : s < 1 := by nlinarith
  have cs := C2P.cauchy_schwarz hG hp v (raise G Fs)
  have hdr : G.dot3 v (raise G Fs) = cc v Fs := dot_raise hG v Fs
  have hrr : G.dot3 (raise G Fs) (raise G Fs) = ccov G Fs Fs := by
    rw [dot_raise hG]; simp only [cc, raise, ccov, Fin.sum_univ_three]; ring
  rw [hdr, hrr] at cs
  have hvF : cc v Fs ≤ s * Es := by
    apply le_of_sq_le_sq _ (by positivity)
    calc cc v Fs ^ 2 ≤ G.dot3 v v * ccov G Fs Fs := cs
      _ ≤ G.dot3 v v * Es ^ 2 := mul_le_mul_of_nonneg_left hF hd0
      _ = (s * Es) ^ 2 := by rw [mul_pow, hs2]
  have hn : 0 ≤ (Es + w * tauJ * JBB) * (2 * w - 1 / w + tauH) - (cc v Fs + (w ^ 2 - 1) / w * tauJ * JBB) * (2 * w + tauH) := by
    have e : (Es + w * tauJ * JBB) * (2 * w - 1 / w + tauH) - (cc v Fs + (w ^ 2 - 1) / w * tauJ * JBB) * (2 * w + tauH) =
        (Es * (2 * w - 1 / w + tauH) - cc v Fs * (2 * w + tauH)) + tauJ * JBB * (1 + tauH / w) := by field_simp; ring
    have h1 : cc v Fs * (2 * w + tauH) ≤ s * Es * (2 * w + tauH) := mul_le_mul_of_nonneg_right hvF (by positivity)
    have h2 : 1 / w ≤ (1 - s) * (2 * w) := by
      rw [div_le_iff₀ hw]
      have : (1 - s) * (2 * w) * w * (1 + s) = 2 := by linear_combination 2 * hws
      nlinarith [mul_nonneg hs0 (by positivity : 0 ≤ w ^ 2)]
    have h3 : 0 ≤ Es * ((1 - s) * (2 * w + tauH) - 1 / w) := by
      apply mul_nonneg hE
      have : 0 ≤ (1 - s) * tauH := mul_nonneg (by linarith) hH
      nlinarith
    have h4 : 0 ≤ tauJ * JBB * (1 + tauH / w) := by positivity
    rw [e]; nlinarith
  have hpos := relaxDet_pos hw hJ hH
  rw [← a] at hn
  exact nonneg_of_mul_nonneg_right hn hpos

/-! ### Small steps -/

section
variable {ι : Type} {l : Filter ι} {G : ADM ℝ}

theorem W_tendsto {v : ι → Vec} {v0 : Vec} (hv : Tendsto v l (𝓝 v0)) : Tendsto (fun h => W G (v h)) l (𝓝 (W G v0)) := by
  have hvi : ∀ i, Tendsto (fun h => v h i) l (𝓝 (v0 i)) := fun i => (tendsto_pi_nhds.1 hv) i
  unfold W v2
  refine Tendsto.div tendsto_const_nhds ((tendsto_const_nhds.sub (Tendsto.min ?_ tendsto_const_nhds)).sqrt) ?_
  · unfold cc lower
    exact tendsto_finsetSum _ fun i _ => (hvi i).mul (tendsto_finsetSum _ fun j _ => (hvi j).mul tendsto_const_nhds)
  · have := min_le_right (cc v0 (lower G v0)) 0.9999
    have : (0:ℝ) < 1 - min (cc v0 (lower G v0)) 0.9999 := by linarith [show (0.9999:ℝ) < 1 by norm_num]
    exact (Real.sqrt_pos.2 this).ne'

/-- **C154, small steps**: energy and momentum before the update, velocity, pressure tensor, opacities and emission tend to some limit while the step length `dt` tends to zero.  Then the change by the update, divided
by `dt`, tends to the exchange terms of the limit state. -/
theorem update_rate (hG : G.Valid) (hp : PosDef G) {dt : ι → ℝ} {Es : ι → ℝ} {Fs : ι → Vec} {v : ι → Vec} {Pi : ι → Tens2} {JBB aJ aH : ι → ℝ}
    {E0 : ℝ} {F0 v0 : Vec} {Pi0 : Tens2} {JBB0 aJ0 aH0 : ℝ} (hdt : Tendsto dt l (𝓝 0)) (hpos : ∀ᶠ h in l, 0 < dt h) (hE : Tendsto Es l (𝓝 E0)) (hF : Tendsto Fs l (𝓝 F0)) (hv : Tendsto v l (𝓝 v0))
    (hPi : ∀ i j, Tendsto (fun h => Pi h i j) l (𝓝 (Pi0 i j))) (hB : Tendsto JBB l (𝓝 JBB0)) (haJ : Tendsto aJ l (𝓝 aJ0)) (haH : Tendsto aH l (𝓝 aH0)) (hJ0 : ∀ᶠ h in l, 0 ≤ aJ h) (hH0 : ∀ᶠ h in l, 0 ≤ aH h)
    (hs : ∀ᶠ h in l, Slow G (v h)) (hs0 : Slow G v0) (hvv : ∀ᶠ h in l, vvPi G (v h) (Pi h) = 0) (hvv0 : vvPi G v0 Pi0 = 0) {J : ℝ} {H : Vec} (hJH : Comoving G v0 Pi0 E0 F0 J H) :
    let d := fun h => linearSourceUpdate false G (v h) (Es h) (Fs h) (Pi h) (JBB h) (dt h * aJ h) (dt h * aH h)
    Tendsto (fun h => (d h).1 / dt h) l (𝓝 (exchangeTerm G v0 JBB0 aJ0 aH0 J H).1) ∧ ∀ i, Tendsto (fun h => (d h).2 i / dt h) l (𝓝 ((exchangeTerm G v0 JBB0 aJ0 aH0 J H).2 i)) := by
  intro d
  have hw0 := W_pos (G := G) (v := v0)
  have hWt := W_tendsto (G := G) hv
  have hvi : ∀ i, Tendsto (fun h => v h i) l (𝓝 (v0 i)) := fun i => (tendsto_pi_nhds.1 hv) i
  have hFi : ∀ i, Tendsto (fun h => Fs h i) l (𝓝 (F0 i)) := fun i => (tendsto_pi_nhds.1 hF) i
  have hlow : ∀ {x : ι → Vec} {x0 : Vec}, (∀ i, Tendsto (fun h => x h i) l (𝓝 (x0 i))) → ∀ i, Tendsto (fun h => lower G (x h) i) l (𝓝 (lower G x0 i)) := fun hx i => by
    unfold lower; exact tendsto_finsetSum _ fun j _ => (hx j).mul tendsto_const_nhds
  have hccT : ∀ {x y : ι → Vec} {x0 y0 : Vec}, (∀ i, Tendsto (fun h => x h i) l (𝓝 (x0 i))) → (∀ i, Tendsto (fun h => y h i) l (𝓝 (y0 i))) →
      Tendsto (fun h => cc (x h) (y h)) l (𝓝 (cc x0 y0)) := fun hx hy => by
    unfold cc; exact tendsto_finsetSum _ fun i _ => (hx i).mul (hy i)
  have hcov : ∀ i, Tendsto (fun h => covVPi G (v h) (Pi h) i) l (𝓝 (covVPi G v0 Pi0 i)) := by
    unfold covVPi
    refine hlow fun i => ?_
    unfold conVPi
    exact tendsto_finsetSum _ fun j _ => (hlow hvi j).mul (hPi i j)
  have tJ : Tendsto (fun h => dt h * aJ h) l (𝓝 0) := by simpa using hdt.mul haJ
  have tH : Tendsto (fun h => dt h * aH h) l (𝓝 0) := by simpa using hdt.mul haH
  -- the moments of the new state
  have ev : ∀ᶠ h in l, ∃ x : ℝ × Vec, BackwardEuler false G (v h) (Pi h) (Es h) (Fs h) (JBB h) (dt h * aJ h) (dt h * aH h) x.1 x.2 := by
    filter_upwards [hpos, hJ0, hH0, hs, hvv] with h h1 h2 h3 h4 h5
    obtain ⟨J, H, hBE, _⟩ := source_update_solves_partial false hG hp h4 (Es h) (Fs h) (Pi h) h5 (JBB h) (dt h * aJ h) (dt h * aH h) (by positivity) (by positivity)
    exact ⟨(J, H), hBE⟩
  obtain ⟨N, hN⟩ : ∃ N : ι → ℝ × Vec, ∀ᶠ h in l, BackwardEuler false G (v h) (Pi h) (Es h) (Fs h) (JBB h) (dt h * aJ h) (dt h * aH h) (N h).1 (N h).2 := by
    classical
    refine ⟨fun h => if hh : ∃ x : ℝ × Vec, BackwardEuler false G (v h) (Pi h) (Es h) (Fs h) (JBB h) (dt h * aJ h) (dt h * aH h) x.1 x.2 then hh.choose else (0, 0), ?_⟩
    filter_upwards [ev] with h hh
    rw [dif_pos hh]; exact hh.choose_spec
  have hBE0 : BackwardEuler false G v0 Pi0 E0 F0 JBB0 0 0 J H := by
    unfold Comoving at hJH
    refine ⟨?_, fun i => ?_⟩
    · rw [hJH]; simp
    · rw [hJH]; simp
  obtain ⟨b1, b2, b3⟩ := be_solve hG hs0 hvv0 hBE0
  have hdet : Tendsto (fun h => relaxDet (W G (v h)) (dt h * aJ h) (dt h * aH h)) l (𝓝 (relaxDet (W G v0) 0 0)) := by
    unfold relaxDet
    exact ((((((hWt.pow 2).const_mul 2).add_const 1).div (hWt.const_mul 3) (by positivity)).add tH).add tJ).add ((tH.mul tJ).div hWt hw0.ne')
  have hd0 := relaxDet_pos hw0 (le_refl 0) (le_refl 0)
  have hinv : Tendsto (fun h => 1 / W G (v h)) l (𝓝 (1 / W G v0)) := tendsto_const_nhds.div hWt hw0.ne'
  have hcF := hccT hvi hFi
  have q1 := hE.add ((hWt.mul tJ).mul hB)
  have q2 := hcF.add (((((hWt.pow 2).sub_const 1).div hWt hw0.ne').mul tJ).mul hB)
  have nJ : Tendsto (fun h => (N h).1) l (𝓝 J) := by
    have h1 := ((q1.mul (((hWt.const_mul 2).sub hinv).add tH)).sub (q2.mul ((hWt.const_mul 2).add tH))).div hdet hd0.ne'
    rw [← b1, mul_div_cancel_left₀ _ hd0.ne'] at h1
    refine h1.congr' ?_
    filter_upwards [hN, hpos, hJ0, hH0, hs, hvv] with h hb p1 p2 p3 h4 h5
    have hp' := relaxDet_pos (W_pos (G := G) (v := v h)) (show 0 ≤ dt h * aJ h by positivity) (show 0 ≤ dt h * aH h by positivity)
    simp only [_root_.Pi.div_apply]
    rw [← (be_solve hG h4 h5 hb).1, mul_div_cancel_left₀ _ hp'.ne']
  have nz : Tendsto (fun h => cc (v h) (N h).2) l (𝓝 (cc v0 H)) := by
    have h1 := ((q2.mul ((((hWt.pow 2).const_mul 4).sub_const 1).div_const 3 |>.add (hWt.mul tJ))).sub
      (q1.mul ((((hWt.pow 2).sub_const 1).const_mul (4/3)).add ((hWt.sub hinv).mul tJ)))).div hdet hd0.ne'
    rw [← b2, mul_div_cancel_left₀ _ hd0.ne'] at h1
    refine h1.congr' ?_
    filter_upwards [hN, hpos, hJ0, hH0, hs, hvv] with h hb p1 p2 p3 h4 h5
    have hp' := relaxDet_pos (W_pos (G := G) (v := v h)) (show 0 ≤ dt h * aJ h by positivity) (show 0 ≤ dt h * aH h by positivity)
    simp only [_root_.Pi.div_apply]
    rw [← (be_solve hG h4 h5 hb).2.1, mul_div_cancel_left₀ _ hp'.ne']
  have nH : ∀ i, Tendsto (fun h => (N h).2 i) l (𝓝 (H i)) := fun i => by
    have hl := hlow hvi i
    have h1 := ((((((hFi i).add (((hWt.mul tJ).mul hl).mul (hB.sub nJ))).sub (((((hWt.pow 2).const_mul 4).div_const 3).mul hl).mul nJ)).sub ((hWt.mul hl).mul nz)).sub (nJ.mul (hcov i)))).div
      (hWt.add tH) (by rw [add_zero]; exact hw0.ne')
    rw [← b3 i, add_zero, mul_div_cancel_left₀ _ hw0.ne'] at h1
    refine h1.congr' ?_
    filter_upwards [hN, hpos, hH0, hs, hvv] with h hb p1 p3 h4 h5
    have hp' : 0 < W G (v h) + dt h * aH h := add_pos_of_pos_of_nonneg W_pos (by positivity)
    simp only [_root_.Pi.div_apply]
    rw [← (be_solve hG h4 h5 hb).2.2 i, mul_div_cancel_left₀ _ hp'.ne']
  -- the increments
  have inc : ∀ᶠ h in l, (d h).1 = dt h * (exchangeTerm G (v h) (JBB h) (aJ h) (aH h) (N h).1 (N h).2).1 ∧ ∀ i, (d h).2 i = dt h * (exchangeTerm G (v h) (JBB h) (aJ h) (aH h) (N h).1 (N h).2).2 i := by
    filter_upwards [hN, hpos, hJ0, hH0, hs, hvv] with h hb p1 p2 p3 h4 h5
    have hu := source_update_unique false hG hp h4 (Es h) (Fs h) (Pi h) h5 (JBB h) _ _ (show 0 ≤ dt h * aJ h by positivity) (show 0 ≤ dt h * aH h by positivity) _ _ hb
    simp only [d, hu, exchangeTerm]
    refine ⟨?_, fun i => ?_⟩
    · rw [hb.1]; simp only [Bool.false_eq_true, if_false]; ring
    · rw [hb.2 i]; ring
  refine ⟨?_, fun i => ?_⟩
  · refine Tendsto.congr' (f₁ := fun h => (exchangeTerm G (v h) (JBB h) (aJ h) (aH h) (N h).1 (N h).2).1) ?_ ?_
    · filter_upwards [inc, hpos] with h hi p
      rw [hi.1, mul_div_cancel_left₀ _ p.ne']
    · exact ((hWt.mul haJ).mul (hB.sub nJ)).sub (haH.mul nz)
  · refine Tendsto.congr' (f₁ := fun h => (exchangeTerm G (v h) (JBB h) (aJ h) (aH h) (N h).1 (N h).2).2 i) ?_ ?_
    · filter_upwards [inc, hpos] with h hi p
      rw [hi.2 i, mul_div_cancel_left₀ _ p.ne']
    · exact (((hWt.mul haJ).mul (hlow hvi i)).mul (hB.sub nJ)).sub (haH.mul (nH i))

end

/-! ### Example: a beam in gas moving along it -/

/-- **C154 (concrete)** the hypotheses are met by a beam of energy one in flat space, in gas moving along it with three fifths of the speed of light; its comoving energy density is `2/11`, its comoving flux `5/11`
(Eddington closure). -/
theorem ex_relax : Slow C2P.flat ![3/5, 0, 0] ∧ vvPi C2P.flat ![3/5, 0, 0] 0 = 0 ∧ ccov C2P.flat ![1, 0, 0] ![1, 0, 0] ≤ (1:ℝ) ^ 2 ∧
    Comoving C2P.flat ![3/5, 0, 0] 0 1 ![1, 0, 0] (2/11) ![5/11, 0, 0] ∧
    Tendsto (fun dt => (linearSourceUpdate false C2P.flat ![3/5, 0, 0] 1 ![1, 0, 0] 0 2 (dt * 1) (dt * 3)).1 / dt) (𝓝[>] 0) (𝓝 (16/11)) := by
  have hs : Slow C2P.flat ![3/5, 0, 0] := by simp [Slow, ADM.dot3, C2P.flat, Fin.sum_univ_three]; norm_num
  have hl : lower C2P.flat ![3/5, 0, 0] = ![3/5, 0, 0] := by funext i; simp [lower, C2P.flat]
  have hW : W C2P.flat ![3/5, 0, 0] = 5/4 := by
    have h1 : v2 C2P.flat ![3/5, 0, 0] = 9 / 25 := by
      simp only [v2, cc, hl, Fin.sum_univ_three]; simp; norm_num
    unfold W
    rw [h1, show (1:ℝ) - 9 / 25 = (4 / 5) ^ 2 by norm_num, Real.sqrt_sq (by norm_num)]; norm_num
  have hv := vvPi_zero C2P.flat ![3/5, 0, 0]
  have hc : Comoving C2P.flat ![3/5, 0, 0] 0 1 ![1, 0, 0] (2/11) ![5/11, 0, 0] := by
    have hz : covVPi C2P.flat ![3/5, 0, 0] 0 = 0 := by funext i; simp [covVPi, lower, conVPi]
    unfold Comoving prim2con
    simp only [hv, W2, hW, hl, hz, Bool.false_eq_true, if_false]
    refine Prod.ext ?_ (funext fun i => ?_)
    · simp [cc, Fin.sum_univ_three]; norm_num
    · fin_cases i <;> simp [cc, Fin.sum_univ_three] <;> norm_num
  refine ⟨hs, hv, by simp [ccov, C2P.flat, Fin.sum_univ_three], hc, ?_⟩
  have key := (update_rate (l := 𝓝[>] (0:ℝ)) (G := C2P.flat) C2P.flat_valid.1 C2P.flat_valid.2 (dt := fun dt => dt) (Es := fun _ => 1) (Fs := fun _ => ![1, 0, 0]) (v := fun _ => ![3/5, 0, 0]) (Pi := fun _ => 0)
    (JBB := fun _ => 2) (aJ := fun _ => 1) (aH := fun _ => 3) (Pi0 := 0) (tendsto_id.mono_left nhdsWithin_le_nhds) self_mem_nhdsWithin tendsto_const_nhds tendsto_const_nhds tendsto_const_nhds (fun _ _ => tendsto_const_nhds) tendsto_const_nhds
    tendsto_const_nhds tendsto_const_nhds (Eventually.of_forall fun _ => by norm_num) (Eventually.of_forall fun _ => by norm_num) (Eventually.of_forall fun _ => hs) hs
    (Eventually.of_forall fun _ => hv) hv hc).1
  have e : (exchangeTerm C2P.flat ![3/5, 0, 0] 2 1 3 (2/11) ![5/11, 0, 0]).1 = 16/11 := by
    simp only [exchangeTerm, hW]; simp [cc, Fin.sum_univ_three]; norm_num
  rw [e] at key
  exact key

end Phoebus.Closure
