import Verif.Moments.Model
import Verif.Closure.Props
import Verif.Timestep.Props
import Verif.Sources.Props
import Verif.C2P.Lemmas
import Verif.Tracers.Props

/-!
# Radiation moments (C77, C78, C79)
-/
namespace Phoebus.Moments
open Geom Robust Closure Finset
open Rel (PosDef lorentz lorentz_sq lorentz_pos lorentz_ge_one)

/-! ## C77: radiation fluxes -/

/-- **C77** the numerical flux is the convex combination, with the weight `a` of C76, of two LLF fluxes: the free-streaming
flux with the speed of light and the diffusion flux with the advection speed; both transport the same jump. -/
theorem flux_decomposition (small SMALL kmin : ℝ) (tp : Vec → ℝ → Vec → Tens2) (f : Face) (hs : SMALL ≤ f.sdet) :
    (faceFlux small SMALL kmin tp f).1 =
      f.a small * llf f.sdet (radSig f)
        ((sideFluxThin tp f f.L).1 f.dir - f.G.beta f.dir * (sideCon tp f f.L).1)
        ((sideFluxThin tp f f.R).1 f.dir - f.G.beta f.dir * (sideCon tp f f.R).1) (sideCon tp f f.L).1 (sideCon tp f f.R).1 +
      (1 - f.a small) * llf f.sdet (asymSig f)
        ((sideFluxAsym tp kmin f f.L).1 f.dir - f.G.beta f.dir * (sideCon tp f f.L).1)
        ((sideFluxAsym tp kmin f f.R).1 f.dir - f.G.beta f.dir * (sideCon tp f f.R).1) (sideCon tp f f.L).1 (sideCon tp f f.R).1 ∧
    ∀ j, (faceFlux small SMALL kmin tp f).2 j =
      f.a small * llf f.sdet (radSig f)
        ((sideFluxThin tp f f.L).2 f.dir j - f.G.beta f.dir * (sideCon tp f f.L).2 j)
        ((sideFluxThin tp f f.R).2 f.dir j - f.G.beta f.dir * (sideCon tp f f.R).2 j) ((sideCon tp f f.L).2 j) ((sideCon tp f f.R).2 j) +
      (1 - f.a small) * llf f.sdet (asymSig f)
        ((sideFluxAsym tp kmin f f.L).2 f.dir j - f.G.beta f.dir * (sideCon tp f f.L).2 j)
        ((sideFluxAsym tp kmin f f.R).2 f.dir j - f.G.beta f.dir * (sideCon tp f f.R).2 j) ((sideCon tp f f.L).2 j) ((sideCon tp f f.R).2 j) := by
  have h1 : (1.0 : ℝ) = 1 := by norm_num
  constructor
  · simp only [faceFlux, if_neg (not_lt.2 hs), llf, sideFlux, sig, h1]; ring
  · intro j
    simp only [faceFlux, if_neg (not_lt.2 hs), llf, sideFlux, sig, h1]; ring

/-- **C77** no flux through a degenerate (zero area) face. -/
theorem flux_degenerate (small SMALL kmin : ℝ) (tp : Vec → ℝ → Vec → Tens2) (f : Face) (hs : f.sdet < SMALL) :
    (faceFlux small SMALL kmin tp f).1 = 0 ∧ ∀ j, (faceFlux small SMALL kmin tp f).2 j = 0 := by
  simp [faceFlux, if_pos hs]

/-- the physical flux through a coordinate face: `√-g T^{i μ}` contracted with `-n_μ` (energy) or lowered (momentum), for the stress-energy tensor
with lab energy `E`, momentum density `F` and pressure `P` (`Sources.conT`). -/
noncomputable def physEnergy (G : ADM ℝ) (sdet E : ℝ) (F : Vec) (P : Tens2) (d : Fin 3) : ℝ :=
  sdet * G.alpha * -∑ m, Sources.covN G m * Sources.conT G E F P d.succ m

noncomputable def physMomentum (G : ADM ℝ) (sdet E : ℝ) (F : Vec) (P : Tens2) (d j : Fin 3) : ℝ :=
  sdet * G.alpha * ∑ m, Sources.conT G E F P d.succ m * G.g4 m j.succ

theorem physEnergy_eq (G : ADM ℝ) (ha : G.alpha ≠ 0) (sdet E : ℝ) (F : Vec) (P : Tens2) (hP : ∀ i j, P i j = P j i) (d : Fin 3) :
    physEnergy G sdet E F P d = sdet * (G.alpha * F d - G.beta d * E) := by
  have h := (Sources.conT_projections G ha E F P).2.1 d.succ
  have e : ∑ m, Sources.covN G m * Sources.conT G E F P d.succ m = ∑ m, Sources.covN G m * Sources.conT G E F P m d.succ :=
    sum_congr rfl fun m _ => by rw [Sources.conT_symm G E F P hP]
  unfold physEnergy
  rw [e, h]
  simp only [Sources.conN, Sources.spatial, Fin.cons_succ]
  field_simp; ring

theorem physMomentum_eq (G : ADM ℝ) (hG : G.Valid) (sdet E : ℝ) (F : Vec) (P : Tens2) (d j : Fin 3) :
    physMomentum G sdet E F P d j = sdet * (G.alpha * (∑ k, P d k * G.gam k j) - G.beta d * lower G F j) := by
  have ha := hG.alpha_ne
  have e : ∑ m, Sources.conT G E F P d.succ m * G.g4 m j.succ
      = (-G.beta d / G.alpha * E + F d) * (1 / G.alpha * G.betaCov j + ∑ k, -G.beta k / G.alpha * G.gam k j) +
        -G.beta d / G.alpha * (∑ k, F k * G.gam k j) + ∑ k, P d k * G.gam k j := by
    rw [Fin.sum_univ_succ]
    simp only [Sources.conT, Sources.conN, Sources.spatial, Fin.cons_zero, Fin.cons_succ, ADM.g4_0s, ADM.g4_ss, Fin.sum_univ_three]
    ring
  have hn : 1 / G.alpha * G.betaCov j + ∑ k, -G.beta k / G.alpha * G.gam k j = 0 := by
    simp only [ADM.betaCov, Fin.sum_univ_three]
    rw [hG.symm j 0, hG.symm j 1, hG.symm j 2]
    field_simp; ring
  have hl : ∑ k, F k * G.gam k j = lower G F j := by unfold lower; exact sum_congr rfl fun k _ => by rw [hG.symm k j]
  unfold physMomentum
  rw [e, hn, hl]
  field_simp; ring

/-- the free-streaming flux of a side is the physical flux of its stress-energy tensor. -/
theorem thin_physical (tp : Vec → ℝ → Vec → Tens2) (htp : ∀ v J H i j, tp v J H i j = tp v J H j i) (f : Face) (hG : f.G.Valid) (s : Side) :
    let v := sideV f.G f.B s
    let J := sideJ f.B s
    let H := sideH f.G f.B s
    let c := sideCon tp f s
    let P := conP f.G v (tp v J H) J H
    f.sdet * ((sideFluxThin tp f s).1 f.dir - f.G.beta f.dir * c.1) = physEnergy f.G f.sdet c.1 (raise f.G c.2) P f.dir ∧
    ∀ j, f.sdet * ((sideFluxThin tp f s).2 f.dir j - f.G.beta f.dir * c.2 j) = physMomentum f.G f.sdet c.1 (raise f.G c.2) P f.dir j := by
  intro v J H c P
  constructor
  · rw [physEnergy_eq _ hG.alpha_ne]
    · simp only [sideFluxThin, fluxes, Bool.false_eq_true, if_false]
      show _ = f.sdet * (f.G.alpha * raise f.G c.2 f.dir - f.G.beta f.dir * c.1)
      simp only [c, sideCon]
      ring
    · intro i j
      simp only [P, conP]
      rw [htp v J H i j, hG.symmInv i j]
      generalize (4.0 / 3.0 : ℝ) = q
      generalize (3.0 : ℝ) = q'
      ring
  · intro j
    rw [physMomentum_eq _ hG, lower_raise hG, pressure_lower hG]
    simp only [sideFluxThin, fluxes]
    ring

/-- **C77** consistency: for equal states on both sides the energy and momentum fluxes are the physical fluxes of the radiation stress-energy tensor
(densitised, in any metric with shift), up to `(1 - a)` times the difference between the diffusion and the free-streaming flux: no numerical dissipation is
added, and the flux is exact when the radiation flux is the diffusive one. -/
theorem flux_consistent (small SMALL kmin : ℝ) (tp : Vec → ℝ → Vec → Tens2) (htp : ∀ v J H i j, tp v J H i j = tp v J H j i) (f : Face)
    (hG : f.G.Valid) (hs : SMALL ≤ f.sdet) (hLR : f.L = f.R) :
    let v := sideV f.G f.B f.L
    let J := sideJ f.B f.L
    let H := sideH f.G f.B f.L
    let c := sideCon tp f f.L
    let P := conP f.G v (tp v J H) J H
    ((faceFlux small SMALL kmin tp f).1 = physEnergy f.G f.sdet c.1 (raise f.G c.2) P f.dir +
      (1 - f.a small) * f.sdet * ((sideFluxAsym tp kmin f f.L).1 f.dir - (sideFluxThin tp f f.L).1 f.dir)) ∧
    (∀ j, (faceFlux small SMALL kmin tp f).2 j = physMomentum f.G f.sdet c.1 (raise f.G c.2) P f.dir j +
      (1 - f.a small) * f.sdet * ((sideFluxAsym tp kmin f f.L).2 f.dir j - (sideFluxThin tp f f.L).2 f.dir j)) ∧
    (H = hAsym kmin (faceKappa f.kl f.kr) f.dJ →
      (faceFlux small SMALL kmin tp f).1 = physEnergy f.G f.sdet c.1 (raise f.G c.2) P f.dir ∧
      ∀ j, (faceFlux small SMALL kmin tp f).2 j = physMomentum f.G f.sdet c.1 (raise f.G c.2) P f.dir j) := by
  intro v J H c P
  obtain ⟨t1, t2⟩ := thin_physical tp htp f hG f.L
  obtain ⟨d1, d2⟩ := flux_decomposition small SMALL kmin tp f hs
  have h05 : (0.5 : ℝ) = 1 / 2 := by norm_num
  have r1 : (faceFlux small SMALL kmin tp f).1 = physEnergy f.G f.sdet c.1 (raise f.G c.2) P f.dir +
      (1 - f.a small) * f.sdet * ((sideFluxAsym tp kmin f f.L).1 f.dir - (sideFluxThin tp f f.L).1 f.dir) := by
    rw [d1, ← hLR, ← t1]; simp only [llf, h05]; ring
  have r2 : ∀ j, (faceFlux small SMALL kmin tp f).2 j = physMomentum f.G f.sdet c.1 (raise f.G c.2) P f.dir j +
      (1 - f.a small) * f.sdet * ((sideFluxAsym tp kmin f f.L).2 f.dir j - (sideFluxThin tp f f.L).2 f.dir j) := by
    intro j
    rw [d2, ← hLR, ← t2]; simp only [llf, h05]; ring
  refine ⟨r1, r2, fun hH => ?_⟩
  have e : sideFluxAsym tp kmin f f.L = sideFluxThin tp f f.L := by
    simp only [sideFluxAsym, sideFluxThin]; rw [← hH]
  constructor
  · rw [r1, e]; ring
  · intro j; rw [r2, e]; ring

/-! ### signal speeds -/

theorem dot3_smul (G : ADM ℝ) (c : ℝ) (x : Vec) : G.dot3 (fun i => x i * c) (fun i => x i * c) = c ^ 2 * G.dot3 x x := by
  simp only [ADM.dot3, Fin.sum_univ_three]; ring

/-- **C77** the velocity of a face state is always below the speed of light; within the ceiling it is the reconstructed one. -/
theorem face_velocity (G : ADM ℝ) (hp : PosDef G) (B : Bounds) (hW : 1 ≤ B.Wc) (s : Side) :
    G.dot3 (sideV G B s) (sideV G B s) < 1 ∧
    ((B.on = false ∨ lorentz G.gam s.vp ≤ B.Wc) → sideV G B s = threeVel G s.vp ∧
      1 / (1 - G.dot3 (sideV G B s) (sideV G B s)) = lorentz G.gam s.vp ^ 2) := by
  have h1 := lorentz_ge_one G hp s.vp
  have h2 := lorentz_sq G hp s.vp
  set W := lorentz G.gam s.vp with hWd
  have hW0 : W ≠ 0 := by positivity
  have e0 : G.dot3 (threeVel G s.vp) (threeVel G s.vp) = 1 - 1 / W ^ 2 := by
    have : threeVel G s.vp = fun i => s.vp i * (1 / W) := by funext i; simp only [threeVel, ← hWd]; ring
    rw [this, dot3_smul, show G.dot3 s.vp s.vp = W ^ 2 - 1 by linarith]
    field_simp
  constructor
  · by_cases h : B.on = true ∧ W > B.Wc
    · have hv : sideV G B s = fun i => s.vp i * (Real.sqrt (B.Wc * B.Wc - 1) / (W * W - 1) / B.Wc) := by
        simp only [sideV, ← hWd]; rw [if_pos h]; funext i; ring
      have hlt : B.Wc ^ 2 < W ^ 2 := by nlinarith [h.2]
      have hp1 : 0 < W ^ 2 - 1 := by nlinarith
      rw [hv, dot3_smul, div_pow, div_pow, Real.sq_sqrt (by nlinarith), show G.dot3 s.vp s.vp = W ^ 2 - 1 by linarith]
      have : (B.Wc * B.Wc - 1) / (W * W - 1) ^ 2 / B.Wc ^ 2 * (W ^ 2 - 1) = (B.Wc ^ 2 - 1) / ((W ^ 2 - 1) * B.Wc ^ 2) := by
        have : W * W - 1 ≠ 0 := by nlinarith
        have h3 : W ^ 2 - 1 ≠ 0 := hp1.ne'
        rw [show W * W - 1 = W ^ 2 - 1 by ring]
        field_simp
      rw [this, div_lt_one (by positivity)]
      have : 1 ≤ B.Wc ^ 2 := by nlinarith
      nlinarith
    · have hv : sideV G B s = threeVel G s.vp := by
        simp only [sideV, ← hWd]; rw [if_neg h]; rfl
      rw [hv, e0]
      have : 0 < 1 / W ^ 2 := by positivity
      linarith
  · intro h
    have hn : ¬ (B.on = true ∧ W > B.Wc) := by
      rintro ⟨a, b⟩
      rcases h with h | h
      · rw [h] at a; simp at a
      · linarith
    have hv : sideV G B s = threeVel G s.vp := by
      simp only [sideV, ← hWd]; rw [if_neg hn]; rfl
    refine ⟨hv, ?_⟩
    rw [hv, e0]; field_simp; ring

/-- **C77** (the stated ceiling is not what is enforced) a face state just above the ceiling keeps a Lorentz factor above it. -/
theorem face_ceiling_wrong : ∃ (G : ADM ℝ) (B : Bounds) (s : Side), G.Valid ∧ PosDef G ∧ B.on = true ∧ 1 < B.Wc ∧
    1 - 1 / B.Wc ^ 2 < G.dot3 (sideV G B s) (sideV G B s) := by
  refine ⟨Tracers.flat, ⟨true, 1.1, 0, 1⟩, ⟨(fun i => if i = 0 then 3/4 else 0), 1, fun _ => 0⟩, Tracers.flat_valid.1, ?_, rfl, by norm_num, ?_⟩
  · exact Tracers.flat_valid.2
  · have hW : lorentz Tracers.flat.gam (fun i => if i = 0 then 3/4 else 0) = 5/4 := by
      unfold lorentz
      rw [show (1 + ∑ i, ∑ j, Tracers.flat.gam i j * (fun i => if i = 0 then 3/4 else 0 : Vec) i * (fun i => if i = 0 then 3/4 else 0 : Vec) j : ℝ) = (5/4) ^ 2 by
        norm_num [Tracers.flat, Fin.sum_univ_three]]
      exact Real.sqrt_sq (by norm_num)
    have hv : sideV Tracers.flat ⟨true, 1.1, 0, 1⟩ ⟨(fun i => if i = 0 then 3/4 else 0), 1, fun _ => 0⟩ =
        fun i => (fun i => if i = 0 then 3/4 else 0 : Vec) i * (Real.sqrt 0.21 / (9/16) / 1.1) := by
      simp only [sideV, hW]
      rw [if_pos (by norm_num)]
      funext i
      rw [show (1.1 : ℝ) * 1.1 - 1 = 0.21 by norm_num, show (5/4 : ℝ) * (5/4) - 1 = 9/16 by norm_num, mul_div_assoc]
    rw [hv, dot3_smul]
    have hd : Tracers.flat.dot3 (fun i => if i = 0 then 3/4 else 0) (fun i => if i = 0 then 3/4 else 0) = 9/16 := by norm_num [Tracers.flat, ADM.dot3, Fin.sum_univ_three]
    rw [hd, div_pow, div_pow, Real.sq_sqrt (by norm_num)]
    norm_num

theorem abs_comp_le {G : ADM ℝ} (hG : G.Valid) (hp : PosDef G) (v : Vec) (hv : G.dot3 v v ≤ 1) (d : Fin 3) : |v d| ≤ Real.sqrt (G.gamInv d d) := by
  set e : Vec := fun i => if i = d then 1 else 0 with he
  have h1 : G.dot3 v (raise G e) = v d := by
    rw [dot_raise hG]; simp [cc, he]
  have h2 : G.dot3 (raise G e) (raise G e) = G.gamInv d d := by
    rw [dot_raise hG]; simp [cc, raise, he]
  have h3 := C2P.cauchy_schwarz hG hp v (raise G e)
  rw [h1, h2] at h3
  have h4 : 0 ≤ G.gamInv d d := by rw [← h2]; exact hp _
  apply Real.abs_le_sqrt
  nlinarith

/-- **C77** the dissipation speed is nonnegative and lies between the advection speed and the coordinate speed of light. -/
theorem sig_bounds (small : ℝ) (hsm : 0 < small) (f : Face) (hG : f.G.Valid) (hp : PosDef f.G) (ha : 0 < f.G.alpha) (hW : 1 ≤ f.B.Wc) :
    0 ≤ asymSig f ∧ asymSig f ≤ sig small f ∧ sig small f ≤ radSig f ∧
    radSig f = f.G.alpha * Real.sqrt (f.G.gamInv f.dir f.dir) + |f.G.beta f.dir| := by
  have hr : radSig f = f.G.alpha * Real.sqrt (f.G.gamInv f.dir f.dir) + |f.G.beta f.dir| := Timestep.radSpeed_eq _ _ _ ha.le
  have key : ∀ s : Side, |f.G.alpha * sideV f.G f.B s f.dir - f.G.beta f.dir| ≤ radSig f := by
    intro s
    have h1 := abs_comp_le hG hp _ (face_velocity f.G hp f.B hW s).1.le f.dir
    rw [hr]
    calc |f.G.alpha * sideV f.G f.B s f.dir - f.G.beta f.dir| ≤ |f.G.alpha * sideV f.G f.B s f.dir| + |f.G.beta f.dir| := abs_sub _ _
      _ = f.G.alpha * |sideV f.G f.B s f.dir| + |f.G.beta f.dir| := by rw [abs_mul, abs_of_pos ha]
      _ ≤ _ := by gcongr
  have has : asymSig f ≤ radSig f := max_le (key _) (key _)
  have h0 : 0 ≤ asymSig f := (abs_nonneg _).trans (le_max_left _ _)
  obtain ⟨a0, a1⟩ := Timestep.peclet_bounds small (faceKappa f.kl f.kr) f.dx hsm
  have h1 : (1.0 : ℝ) = 1 := by norm_num
  simp only [sig, Face.a, h1]
  set a := Timestep.peclet small (faceKappa f.kl f.kr) f.dx
  refine ⟨h0, ?_, ?_, hr⟩
  · nlinarith
  · nlinarith

/-! ### floors and ceilings -/

theorem hsq_smul (G : ADM ℝ) (v H : Vec) (c : ℝ) : hsq G v (fun i => H i * c) = c ^ 2 * hsq G v H := by
  simp only [hsq, ccov, cc, Fin.sum_univ_three]; ring

/-- **C77** with the bounds strategy the face state has an energy density no smaller than the floor and a flux factor no larger than the ceiling; a state
within the bounds is used unchanged.

Partial form of C77. Full property: For every metric (with shift), face state and opacity the radiation flux is a
convex blend of a free-streaming and a diffusion LLF flux; for equal states it is the physical flux of the radiation
stress-energy tensor up to the blend difference; for matter at rest with a diffusive flux it is exactly the diffusion
law and it vanishes as the opacity grows; the dissipation speed never exceeds the speed of light; energy floor, flux-
factor and Lorentz-factor ceilings are respected; degenerate faces carry no flux. Missing: All proved except the
velocity ceiling, which the code does not enforce (witness face_ceiling_wrong). -/
theorem face_bounds_partial (G : ADM ℝ) (B : Bounds) (s : Side) (hon : B.on = true) (hJ : 0 < B.Jfloor) (hx : 0 ≤ B.xiMax) :
    B.Jfloor ≤ sideJ B s ∧ Real.sqrt (hsq G (sideV G B s) (sideH G B s)) ≤ B.xiMax * sideJ B s ∧
    (B.Jfloor ≤ s.J → sideJ B s = s.J) ∧ (sideXi G B s ≤ B.xiMax → ∀ i, sideH G B s i = sideJ B s * s.h i) ∧
    ∃ c, 0 ≤ c ∧ c ≤ 1 ∧ ∀ i, sideH G B s i = c * (sideJ B s * s.h i) := by
  have hj : sideJ B s = max s.J B.Jfloor := by simp [sideJ, hon]
  have hjp : 0 < sideJ B s := by rw [hj]; exact lt_of_lt_of_le hJ (le_max_right _ _)
  refine ⟨by rw [hj]; exact le_max_right _ _, ?_, fun h => by rw [hj]; exact max_eq_left h, ?_, ?_⟩
  · by_cases h : sideXi G B s > B.xiMax
    · have hxp : 0 < sideXi G B s := lt_of_le_of_lt hx h
      have e : sideH G B s = fun i => sideH0 B s i * (B.xiMax / sideXi G B s) := by simp only [sideH, hon, h, and_self, if_true]
      rw [e, hsq_smul, Real.sqrt_mul (sq_nonneg _), Real.sqrt_sq (div_nonneg hx hxp.le)]
      have e2 : Real.sqrt (hsq G (sideV G B s) (sideH0 B s)) = sideXi G B s * sideJ B s := by
        unfold sideXi; field_simp
      rw [e2]
      apply le_of_eq; field_simp
    · have e : sideH G B s = sideH0 B s := by simp only [sideH, hon, h, and_false, if_false]
      rw [e, ← div_le_iff₀ hjp]; exact not_lt.1 h
  · intro h i
    simp only [sideH, if_neg (show ¬ (B.on = true ∧ sideXi G B s > B.xiMax) from fun q => absurd h (not_le.2 q.2)), sideH0]
  · by_cases h : sideXi G B s > B.xiMax
    · have hxp : 0 < sideXi G B s := lt_of_le_of_lt hx h
      refine ⟨B.xiMax / sideXi G B s, div_nonneg hx hxp.le, (div_le_one hxp).2 h.le, fun i => ?_⟩
      simp only [sideH, hon, h, and_self, if_true, sideH0]; ring
    · refine ⟨1, by norm_num, le_refl _, fun i => ?_⟩
      simp only [sideH, hon, h, and_false, if_false, sideH0]; ring

/-! ### the diffusion limit -/

theorem W_rest (G : ADM ℝ) : W G (fun _ => 0) = 1 := by
  have : v2 G (fun _ => 0) = 0 := by
    simp only [v2, cc, lower, zero_mul, sum_const_zero]
    norm_num
  rw [W, this]; norm_num

/-- fluxes of matter at rest: the energy flux is the raised radiation flux times the lapse. -/
theorem fluxes_rest (G : ADM ℝ) (Pi : Tens2) (J : ℝ) (H : Vec) (i : Fin 3) :
    (fluxes false G (fun _ => 0) Pi J H).1 i = G.alpha * raise G H i ∧ (prim2con false G (fun _ => 0) Pi J H).1 = J := by
  have hl : ∀ i, lower G (fun _ => 0) i = 0 := fun i => by simp [lower]
  have hc : ∀ i, covVPi G (fun _ => 0) Pi i = 0 := fun i => by simp [covVPi, conVPi, lower]
  have hv : vvPi G (fun _ => 0) Pi = 0 := by simp [vvPi, hl]
  have hF : (prim2con false G (fun _ => 0) Pi J H).2 = H := by
    funext i; simp only [prim2con, hl, hc, W_rest]; ring
  constructor
  · simp only [fluxes, Bool.false_eq_true, if_false]
    rw [hF]; ring
  · simp only [prim2con, hv, W2, W_rest, Bool.false_eq_true, if_false, cc]
    simp; ring

/-- **C77** diffusion: for matter at rest without shift and a continuous energy density, when the stored flux is the diffusive one, the
energy flux is Fick's law `-√γ α γ^{ij} ∂_j J / (3 κ)` exactly (κ regularised by `kmin`), whatever the optical depth of the cell. -/
theorem diffusion_flux (small SMALL kmin : ℝ) (tp : Vec → ℝ → Vec → Tens2) (htp : ∀ v J H i j, tp v J H i j = tp v J H j i) (f : Face)
    (hG : f.G.Valid) (hs : SMALL ≤ f.sdet) (hLR : f.L = f.R) (hv : sideV f.G f.B f.L = fun _ => 0) (hb : f.G.beta f.dir = 0)
    (hH : sideH f.G f.B f.L = hAsym kmin (faceKappa f.kl f.kr) f.dJ) :
    (faceFlux small SMALL kmin tp f).1 =
      -(f.sdet * f.G.alpha * ∑ j, f.G.gamInv f.dir j * f.dJ j / (3 * (faceKappa f.kl f.kr + kmin))) := by
  have h := ((flux_consistent small SMALL kmin tp htp f hG hs hLR).2.2 hH).1
  rw [h, ← (thin_physical tp htp f hG f.L).1, hb]
  have e : (sideFluxThin tp f f.L).1 f.dir = f.G.alpha * raise f.G (hAsym kmin (faceKappa f.kl f.kr) f.dJ) f.dir := by
    simp only [sideFluxThin]; rw [hv, (fluxes_rest f.G _ _ _ f.dir).1, hH]
  rw [e]
  simp only [raise, hAsym, Fin.sum_univ_three]
  rw [show 3 * faceKappa f.kl f.kr + 3 * kmin = 3 * (faceKappa f.kl f.kr + kmin) by ring]
  ring

/-- **C77** opaque matter at rest is not crossed: with any states on both sides, the energy flux tends to zero as the opacity grows. -/
theorem opaque_limit (small SMALL kmin : ℝ) (tp : Vec → ℝ → Vec → Tens2) (f : Face) (hdx : 0 < f.dx)
    (hs : SMALL ≤ f.sdet) (hvL : sideV f.G f.B f.L = fun _ => 0) (hvR : sideV f.G f.B f.R = fun _ => 0) (hb : f.G.beta f.dir = 0) :
    Filter.Tendsto (fun k => (faceFlux small SMALL kmin tp { f with kl := k, kr := k }).1) Filter.atTop (nhds 0) := by
  set g : ℝ → Face := fun k => { f with kl := k, kr := k } with hg
  obtain ⟨C, hC⟩ : ∃ C, ∀ k, llf f.sdet (radSig (g k))
        ((sideFluxThin tp (g k) f.L).1 f.dir - f.G.beta f.dir * (sideCon tp (g k) f.L).1)
        ((sideFluxThin tp (g k) f.R).1 f.dir - f.G.beta f.dir * (sideCon tp (g k) f.R).1) (sideCon tp (g k) f.L).1 (sideCon tp (g k) f.R).1 = C :=
    ⟨llf f.sdet (radSig (g 0))
        ((sideFluxThin tp (g 0) f.L).1 f.dir - f.G.beta f.dir * (sideCon tp (g 0) f.L).1)
        ((sideFluxThin tp (g 0) f.R).1 f.dir - f.G.beta f.dir * (sideCon tp (g 0) f.R).1) (sideCon tp (g 0) f.L).1 (sideCon tp (g 0) f.R).1,
      fun _ => rfl⟩
  set D : ℝ := -(f.sdet * f.G.alpha * ∑ j, f.G.gamInv f.dir j * f.dJ j) with hD
  have hform : ∀ k, 0 ≤ k → (faceFlux small SMALL kmin tp (g k)).1 =
      Real.tanh (1 / (k * f.dx + small)) * C + (1 - Real.tanh (1 / (k * f.dx + small))) * (D * (3 * k + 3 * kmin)⁻¹) := by
    intro k hk0
    have hkap : faceKappa k k = k := by unfold faceKappa; exact Real.sqrt_mul_self hk0
    have ha : (g k).a small = Real.tanh (1 / (k * f.dx + small)) := by
      simp only [Face.a, hg, hkap, Timestep.peclet, pow_one, ratio, abs_nonneg, if_true, one_mul]
      rw [abs_of_nonneg (mul_nonneg hk0 hdx.le)]
    have hz : asymSig (g k) = 0 := by simp [asymSig, hg, hvL, hvR, hb]
    have hf : ∀ s, sideV f.G f.B s = (fun _ => 0) →
        (sideFluxAsym tp kmin (g k) s).1 f.dir = f.G.alpha * raise f.G (hAsym kmin k f.dJ) f.dir := by
      intro s hv
      simp only [sideFluxAsym, hg, hkap]; rw [hv, (fluxes_rest f.G _ _ _ f.dir).1]
    rw [(flux_decomposition small SMALL kmin tp (g k) hs).1, ha]
    have e1 := hC k
    have h05 : (0.5 : ℝ) = 1 / 2 := by norm_num
    have e2 : llf (g k).sdet (asymSig (g k))
        ((sideFluxAsym tp kmin (g k) (g k).L).1 (g k).dir - (g k).G.beta (g k).dir * (sideCon tp (g k) (g k).L).1)
        ((sideFluxAsym tp kmin (g k) (g k).R).1 (g k).dir - (g k).G.beta (g k).dir * (sideCon tp (g k) (g k).R).1)
        (sideCon tp (g k) (g k).L).1 (sideCon tp (g k) (g k).R).1 = D * (3 * k + 3 * kmin)⁻¹ := by
      rw [hz]
      show llf f.sdet 0 ((sideFluxAsym tp kmin (g k) f.L).1 f.dir - f.G.beta f.dir * _) ((sideFluxAsym tp kmin (g k) f.R).1 f.dir - f.G.beta f.dir * _) _ _ = _
      rw [hf _ hvL, hf _ hvR, hb]
      simp only [llf, hD, raise, hAsym, Fin.sum_univ_three, h05]
      ring
    rw [e2]
    congr 1
    rw [← e1]
  have hlin : Filter.Tendsto (fun k : ℝ => k * f.dx + small) Filter.atTop Filter.atTop :=
    Filter.tendsto_atTop_add_const_right _ _ (Filter.tendsto_id.atTop_mul_const hdx)
  have h1 : Filter.Tendsto (fun k : ℝ => 1 / (k * f.dx + small)) Filter.atTop (nhds 0) := by
    simp only [one_div]; exact tendsto_inv_atTop_zero.comp hlin
  have hcont : Continuous Real.tanh := by
    have : Real.tanh = fun x => Real.sinh x / Real.cosh x := by funext x; exact Real.tanh_eq_sinh_div_cosh x
    rw [this]
    exact Real.continuous_sinh.div Real.continuous_cosh fun x => (Real.cosh_pos x).ne'
  have h2 : Filter.Tendsto (fun k : ℝ => Real.tanh (1 / (k * f.dx + small))) Filter.atTop (nhds 0) := by
    have := (hcont.tendsto 0).comp h1
    rwa [Real.tanh_zero] at this
  have h3 : Filter.Tendsto (fun k : ℝ => D * (3 * k + 3 * kmin)⁻¹) Filter.atTop (nhds 0) := by
    have : Filter.Tendsto (fun k : ℝ => 3 * k + 3 * kmin) Filter.atTop Filter.atTop :=
      Filter.tendsto_atTop_add_const_right _ _ (Filter.tendsto_id.const_mul_atTop (by norm_num))
    have := (tendsto_inv_atTop_zero.comp this).const_mul D
    rwa [mul_zero] at this
  have h4 := (h2.mul_const C).add ((h2.const_sub 1).mul h3)
  simp only [zero_mul, mul_zero, add_zero] at h4
  refine h4.congr' ?_
  filter_upwards [Filter.eventually_ge_atTop (0:ℝ)] with k hk0
  exact (hform k hk0).symm

/-- **C77** The opacity of a face is the geometric mean of the two cells: between them, the same from either side, zero if either cell is transparent. -/
theorem faceKappa_spec (kl kr : ℝ) (hl : 0 ≤ kl) (hr : 0 ≤ kr) :
    faceKappa kl kr ^ 2 = kl * kr ∧ min kl kr ≤ faceKappa kl kr ∧ faceKappa kl kr ≤ max kl kr ∧ faceKappa kl kr = faceKappa kr kl := by
  unfold faceKappa
  refine ⟨Real.sq_sqrt (mul_nonneg hl hr), ?_, ?_, by rw [mul_comm]⟩
  · refine Real.le_sqrt_of_sq_le ?_
    rw [sq]; exact mul_le_mul (min_le_left _ _) (min_le_right _ _) (le_min hl hr) hl
  · refine (Real.sqrt_le_left (le_max_of_le_left hl)).2 ?_
    rw [sq]; exact mul_le_mul (le_max_left _ _) (le_max_right _ _) hr (le_max_of_le_left hl)

/-- **C77** The two-state flux: mean of the two fluxes when the states agree, upwind for fluxes that transport with the signal speed, and seen
from the other side it is the same flux with opposite sign. -/
theorem llf_spec (sdet sigma Fl Fr Ul Ur : ℝ) :
    llf sdet sigma Fl Fr Ul Ul = sdet * ((Fl + Fr) / 2) ∧ llf sdet sigma (sigma * Ul) (sigma * Ur) Ul Ur = sdet * (sigma * Ul) ∧
    llf sdet sigma (-sigma * Ul) (-sigma * Ur) Ul Ur = sdet * (-sigma * Ur) ∧
    llf sdet sigma Fl Fr Ul Ur = -llf sdet sigma (-Fr) (-Fl) Ur Ul := by
  have h : (0.5 : ℝ) = 1 / 2 := by norm_num
  simp only [llf, h]
  refine ⟨by ring, by ring, by ring, by ring⟩

end Phoebus.Moments
