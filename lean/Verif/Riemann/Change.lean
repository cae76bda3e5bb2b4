import Verif.Riemann.Mirror

/-!
# C142, C143: the fluxes with other names of the axes and another unit of density

Axis `i` of the new description is axis `σ i` of the old one; densities, energies and pressures are multiplied by `lam = s²`, magnetic fields by `s`.
-/
namespace Phoebus.Riemann
open Finset Geom Robust Rel

/-! ### Specification -/

/-- the geometry with renamed axes. -/
def renG (σ : Equiv.Perm (Fin 3)) (G : ADM ℝ) : ADM ℝ :=
  ⟨G.alpha, fun i => G.beta (σ i), fun i j => G.gam (σ i) (σ j), fun i j => G.gamInv (σ i) (σ j)⟩

/-- the fluid state with renamed axes and rescaled matter. -/
def renQ (σ : Equiv.Perm (Fin 3)) (s : ℝ) (q : Prim) : Prim := ⟨s ^ 2 * q.rho, s ^ 2 * q.u, s ^ 2 * q.P, fun i => q.v (σ i), fun i => s * q.B (σ i)⟩

/-- conserved variables (or fluxes) with renamed axes and rescaled matter. -/
def renU (σ : Equiv.Perm (Fin 3)) (s : ℝ) (U : Slots) : Slots :=
  ⟨s ^ 2 * U.rho, fun i => s ^ 2 * U.mom (σ i), s ^ 2 * U.eng, fun i => s * U.B (σ i), s ^ 2 * U.ye⟩

/-- floors and ceilings with rescaled matter. -/
def renL (s : ℝ) (L : Limits) : Limits := ⟨s ^ 2 * L.rhoFloor, L.sieFloor, L.sieMax, L.gamMax⟩

/-- face state with renamed axes and rescaled matter. -/
def renS (σ : Equiv.Perm (Fin 3)) (s : ℝ) (l : FaceState) : FaceState := ⟨l.ye, l.g1, renQ σ s l.q⟩

/-! ### Proof -/

variable {σ : Equiv.Perm (Fin 3)} {s : ℝ}

theorem quad_ren (g : Fin 3 → Fin 3 → ℝ) (x y : Fin 3 → ℝ) :
    ∑ i, ∑ j, g (σ i) (σ j) * x (σ i) * y (σ j) = ∑ i, ∑ j, g i j * x i * y j := by
  rw [← Equiv.sum_comp σ fun i => ∑ j, g i j * x i * y j]
  exact sum_congr rfl fun i _ => Equiv.sum_comp σ fun j => g (σ i) j * x (σ i) * y j

theorem lin_ren (g : Fin 3 → Fin 3 → ℝ) (x : Fin 3 → ℝ) (i : Fin 3) : ∑ j, g (σ i) (σ j) * x (σ j) = ∑ j, g (σ i) j * x j :=
  Equiv.sum_comp σ fun j => g (σ i) j * x j

theorem lorentz_ren (G : ADM ℝ) (v : Fin 3 → ℝ) : lorentz (renG σ G).gam (fun i => v (σ i)) = lorentz G.gam v := by
  unfold lorentz renG
  rw [quad_ren]

variable (G : ADM ℝ) (L : Limits) (q : Prim)

theorem betaCov_ren (i : Fin 3) : (renG σ G).betaCov i = G.betaCov (σ i) := lin_ren G.gam G.beta i

theorem g400_ren : (renG σ G).g4 0 0 = G.g4 0 0 := by
  rw [ADM.g4_00, ADM.g4_00]
  unfold ADM.dot3 renG
  simp only
  rw [quad_ren]

theorem fVp_ren : fVp (renG σ G) (renL s L) (renQ σ s q) = fun i => fVp G L q (σ i) := by
  unfold fVp
  simp only [show (renQ σ s q).v = fun i => q.v (σ i) from rfl, lorentz_ren, show (renL s L).gamMax = L.gamMax from rfl]
  split_ifs <;> rfl

theorem fV0_ren : fV0 (renG σ G) (renL s L) (renQ σ s q) = fun i => fV0 G L q (σ i) := by
  unfold fV0
  funext i
  rw [fVp_ren, show (renQ σ s q).v = fun i => q.v (σ i) from rfl, lorentz_ren]

theorem fVsq0_ren : fVsq0 (renG σ G) (renL s L) (renQ σ s q) = fVsq0 G L q := by
  unfold fVsq0
  simp only [fV0_ren, ADM.g4_ss]
  exact quad_ren _ _ _

theorem vsqMax_ren : vsqMax (renL s L) = vsqMax L := rfl

theorem fV_ren : fV (renG σ G) (renL s L) (renQ σ s q) = fun i => fV G L q (σ i) := by
  unfold fV
  rw [fVsq0_ren, fV0_ren, vsqMax_ren]
  split_ifs <;> rfl

theorem fVsq_ren : fVsq (renG σ G) (renL s L) (renQ σ s q) = fVsq G L q := by
  unfold fVsq
  rw [fVsq0_ren, vsqMax_ren]

theorem fBdotv_ren : fBdotv (renG σ G) (renL s L) (renQ σ s q) = s * fBdotv G L q := by
  unfold fBdotv
  simp only [fVsq0_ren, fV0_ren, ADM.g4_ss, vsqMax_ren]
  have : ∑ m : Fin 3, ∑ n : Fin 3, (renG σ G).gam m n * (renQ σ s q).B m * fV0 G L q (σ n) = s * ∑ m, ∑ n, G.gam m n * q.B m * fV0 G L q n := by
    rw [← quad_ren (σ := σ) G.gam q.B (fV0 G L q), mul_sum]
    refine sum_congr rfl fun m _ => ?_
    rw [mul_sum]
    refine sum_congr rfl fun n _ => ?_
    simp only [renG, renQ]; ring
  rw [this]
  split_ifs <;> ring

theorem fBdotB_ren : fBdotB (renG σ G) (renQ σ s q) = s ^ 2 * fBdotB G q := by
  unfold fBdotB
  simp only [ADM.g4_ss]
  rw [← quad_ren (σ := σ) G.gam q.B q.B, mul_sum]
  refine sum_congr rfl fun m _ => ?_
  rw [mul_sum]
  refine sum_congr rfl fun n _ => ?_
  simp only [renG, renQ]; ring

theorem fW_ren : fW (renG σ G) (renL s L) (renQ σ s q) = fW G L q := by unfold fW; rw [fVsq_ren]

theorem fb0_ren : fb0 (renG σ G) (renL s L) (renQ σ s q) = s * fb0 G L q := by unfold fb0; rw [fW_ren, fBdotv_ren]; ring

theorem fbsq_ren : fbsq (renG σ G) (renL s L) (renQ σ s q) = s ^ 2 * fbsq G L q := by unfold fbsq; rw [fW_ren, fb0_ren, fBdotB_ren]; ring

theorem fVtil_ren (d : Fin 3) : fVtil (renG σ G) (renL s L) (renQ σ s q) d = fVtil G L q (σ d) := by
  unfold fVtil
  rw [fV_ren]; rfl

theorem fbcov_ren (m : Fin 3) : fbcov (renG σ G) (renL s L) (renQ σ s q) m = s * fbcov G L q (σ m) := by
  unfold fbcov
  simp only [fb0_ren, fW_ren, fV_ren, ADM.g4_s0, ADM.g4_ss, betaCov_ren]
  have : ∑ n, (renG σ G).gam m n * ((renQ σ s q).B n / fW G L q + s * fb0 G L q * (fV G L q (σ n) - (renG σ G).beta n / (renG σ G).alpha)) =
      s * ∑ n, G.gam (σ m) (σ n) * (q.B (σ n) / fW G L q + fb0 G L q * (fV G L q (σ n) - G.beta (σ n) / G.alpha)) := by
    rw [mul_sum]
    refine sum_congr rfl fun n _ => ?_
    simp only [renG, renQ]; ring
  rw [this, Equiv.sum_comp σ fun n => G.gam (σ m) n * (q.B n / fW G L q + fb0 G L q * (fV G L q n - G.beta n / G.alpha))]
  show G.betaCov (σ m) * (s * fb0 G L q) / G.alpha + _ = _
  ring

theorem fvcov_ren (m : Fin 3) : fvcov (renG σ G) (renL s L) (renQ σ s q) m = fvcov G L q (σ m) := by
  unfold fvcov
  simp only [fV_ren, ADM.g4_ss]
  exact lin_ren _ _ _

theorem fRho_ren (hs : 0 < s) : fRho (renL s L) (renQ σ s q) = s ^ 2 * fRho L q := by
  unfold fRho renL renQ
  rw [mul_max_of_nonneg _ _ (by positivity)]

theorem fU_ren (hs : 0 < s) : fU (renL s L) (renQ σ s q) = s ^ 2 * fU L q := by
  unfold fU
  rw [fRho_ren L q hs]
  have : (renQ σ s q).u / (s ^ 2 * fRho L q) = q.u / fRho L q := by
    show s ^ 2 * q.u / _ = _
    rw [mul_div_mul_left _ _ (by positivity)]
  rw [this]
  have h1 : (renL s L).sieFloor = L.sieFloor := rfl
  have h2 : (renL s L).sieMax = L.sieMax := rfl
  have h3 : (renQ σ s q).u = s ^ 2 * q.u := rfl
  rw [h1, h2, h3]
  by_cases c1 : q.u / fRho L q > L.sieFloor
  · rw [if_pos c1, if_pos c1]
    by_cases c2 : q.u / fRho L q > L.sieMax
    · rw [if_pos c2, if_pos c2]; ring
    · rw [if_neg c2, if_neg c2]
  · rw [if_neg c1, if_neg c1]; ring

theorem fP_ren (hs : 0 < s) : fP (renQ σ s q) = s ^ 2 * fP q := by
  unfold fP renQ
  rw [mul_max_of_nonneg _ _ (by positivity), mul_zero]

theorem frhohWsq_ren (hs : 0 < s) : frhohWsq (renG σ G) (renL s L) (renQ σ s q) = s ^ 2 * frhohWsq G L q := by
  unfold frhohWsq
  rw [fW_ren, fRho_ren L q hs, fU_ren L q hs, fP_ren q hs]; ring

theorem fucon_ren : fucon (renG σ G) (renL s L) (renQ σ s q) 0 = fucon G L q 0 ∧
    ∀ i : Fin 3, fucon (renG σ G) (renL s L) (renQ σ s q) i.succ = fucon G L q (σ i).succ := by
  unfold fucon
  simp only [fW_ren, fVp_ren, Fin.cons_zero, Fin.cons_succ]
  exact ⟨rfl, fun i => rfl⟩

theorem fbcon_ren : fbcon (renG σ G) (renL s L) (renQ σ s q) 0 = s * fbcon G L q 0 ∧
    ∀ i : Fin 3, fbcon (renG σ G) (renL s L) (renQ σ s q) i.succ = s * fbcon G L q (σ i).succ := by
  unfold fbcon
  simp only [fW_ren, fb0_ren, (fucon_ren G L q).2, Fin.cons_zero, Fin.cons_succ]
  refine ⟨by simp only [renG]; ring, fun i => ?_⟩
  simp only [renQ]; ring

theorem lower0_ren (t : ℝ) (x y : Fin 4 → ℝ) (h0 : x 0 = t * y 0) (hi : ∀ i : Fin 3, x i.succ = t * y (σ i).succ) :
    ∑ ν, (renG σ G).g4 0 ν * x ν = t * ∑ ν, G.g4 0 ν * y ν := by
  rw [Fin.sum_univ_succ, Fin.sum_univ_succ (f := fun ν => G.g4 0 ν * y ν), g400_ren, h0]
  simp only [ADM.g4_0s, betaCov_ren, hi]
  rw [← Equiv.sum_comp σ fun i => G.betaCov i * y i.succ, mul_add, mul_sum]
  congr 1
  · ring
  · exact sum_congr rfl fun i _ => by ring

/-- conserved variables in the new description. -/
theorem fluxU_ren (hs : 0 < s) (val : Bool) (ye : ℝ) : fluxU val (renG σ G) (renL s L) ye (renQ σ s q) = renU σ s (fluxU val G L ye q) := by
  have ha : (renG σ G).alpha = G.alpha := rfl
  have l1 := lower0_ren (σ := σ) G 1 (fucon (renG σ G) (renL s L) (renQ σ s q)) (fucon G L q) (by rw [one_mul]; exact (fucon_ren (σ := σ) (s := s) G L q).1)
    (fun i => by rw [one_mul]; exact (fucon_ren (σ := σ) (s := s) G L q).2 i)
  have l2 := lower0_ren (σ := σ) G s _ _ (fbcon_ren (σ := σ) G L q).1 (fbcon_ren G L q).2
  unfold fluxU renU
  simp only [fW_ren, fbsq_ren, frhohWsq_ren G L q hs, fb0_ren, fvcov_ren, fbcov_ren, fRho_ren L q hs, fU_ren L q hs, fP_ren q hs, ha, l1, l2, (fucon_ren G L q).1,
    (fbcon_ren G L q).1, Slots.mk.injEq]
  refine ⟨by ring, ?_, ?_, rfl, by ring⟩
  · funext m; ring
  · split_ifs <;> ring

/-- **C142, C143 (physical flux)**. -/
theorem fluxF_ren (hs : 0 < s) (val : Bool) (ye : ℝ) (d : Fin 3) :
    fluxF val (renG σ G) (renL s L) ye (renQ σ s q) d = renU σ s (fluxF val G L ye q (σ d)) := by
  have l1 := lower0_ren (σ := σ) G 1 (fucon (renG σ G) (renL s L) (renQ σ s q)) (fucon G L q) (by rw [one_mul]; exact (fucon_ren (σ := σ) (s := s) G L q).1)
    (fun i => by rw [one_mul]; exact (fucon_ren (σ := σ) (s := s) G L q).2 i)
  have l2 := lower0_ren (σ := σ) G s _ _ (fbcon_ren (σ := σ) G L q).1 (fbcon_ren G L q).2
  unfold fluxF
  simp only [fluxU_ren G L q hs, fW_ren, fbsq_ren, fVtil_ren, fbcov_ren, fBdotv_ren, fV_ren, fRho_ren L q hs, fU_ren L q hs, fP_ren q hs, l1, l2,
    (fucon_ren G L q).2, (fbcon_ren G L q).2]
  simp only [renU, renQ, renG, Slots.mk.injEq]
  refine ⟨by ring, ?_, ?_, ?_, by ring⟩
  · funext m
    by_cases e : d = m
    · subst e
      simp only [if_true]; ring
    · have : σ d ≠ σ m := fun h => e (σ.injective h)
      simp only [e, this, if_false]; ring
  · split_ifs <;> ring
  · funext m; ring

/-- the unit is not changed, or the energy density `w` is above the regulariser of `make_positive` in both units (and that of the field is not negative). -/
def Resolved (s eps w b : ℝ) : Prop := s = 1 ∨ (0 ≤ b ∧ eps ≤ w ∧ eps ≤ s ^ 2 * w)

theorem Resolved.drop {eps w b : ℝ} (h : Resolved s eps w b) : Resolved s eps w 0 := h.imp id fun h => ⟨le_rfl, h.2⟩

theorem makePositive_ren {eps w b : ℝ} (hs : 0 < s) (hr : Resolved s eps w b) (a : ℝ) :
    s ^ 2 * a / makePositive eps (s ^ 2 * (w + b)) = a / makePositive eps (w + b) := by
  rcases hr with rfl | ⟨hb, h1, h2⟩
  · simp
  · have : 0 ≤ s ^ 2 * b := by positivity
    unfold makePositive
    rw [max_eq_left (by nlinarith), max_eq_left (by linarith), mul_div_mul_left _ _ (by positivity)]

theorem fcmsq_ren (hs : 0 < s) (eps g1 : ℝ) (hr : Resolved s eps (frhohWsq G L q) (fbsq G L q * fW G L q * fW G L q)) :
    fcmsq eps (renG σ G) (renL s L) g1 (renQ σ s q) = fcmsq eps G L g1 q := by
  unfold fcmsq
  simp only [fW_ren, fbsq_ren, frhohWsq_ren G L q hs, fP_ren q hs]
  have e1 : s ^ 2 * fbsq G L q * fW G L q * fW G L q / makePositive eps (s ^ 2 * frhohWsq G L q + s ^ 2 * fbsq G L q * fW G L q * fW G L q) =
      fbsq G L q * fW G L q * fW G L q / makePositive eps (frhohWsq G L q + fbsq G L q * fW G L q * fW G L q) := by
    rw [← makePositive_ren hs hr]
    have a1 : s ^ 2 * fbsq G L q * fW G L q * fW G L q = s ^ 2 * (fbsq G L q * fW G L q * fW G L q) := by ring
    rw [a1, mul_add]
  have e2 : g1 * (s ^ 2 * fP q) * fW G L q * fW G L q / makePositive eps (s ^ 2 * frhohWsq G L q) =
      g1 * fP q * fW G L q * fW G L q / makePositive eps (frhohWsq G L q) := by
    have := makePositive_ren hs hr.drop (g1 * fP q * fW G L q * fW G L q)
    rw [add_zero] at this
    rw [← this]
    congr 1; ring
  rw [e1, e2]

theorem codeSpeeds_ren (hs : 0 < s) (eps g1 : ℝ) (hr : Resolved s eps (frhohWsq G L q) (fbsq G L q * fW G L q * fW G L q)) (d : Fin 3) :
    MeshRun.codeSpeeds eps (renG σ G) (renL s L) g1 (renQ σ s q) d = MeshRun.codeSpeeds eps G L g1 q (σ d) := by
  unfold MeshRun.codeSpeeds
  simp only [fVsq_ren, fV_ren, fcmsq_ren G L q hs eps g1 hr]
  rfl

/-- the face state is admissible for a change of unit. -/
def Fit (s eps : ℝ) (G : ADM ℝ) (L : Limits) (l : FaceState) : Prop :=
  Resolved s eps (frhohWsq G L l.q) (fbsq G L l.q * fW G L l.q * fW G L l.q)

/-- **C142, C143 (numerical flux)**. -/
theorem numFlux_ren (hs : 0 < s) (sol : MeshRun.Solver) (small eps : ℝ) (val : Bool) (gdet gammadet : ℝ) (d : Fin 3) (l r : FaceState) (hl : Fit s eps G L l)
    (hr : Fit s eps G L r) :
    numFlux sol small eps val (renG σ G) (renL s L) gdet gammadet d (renS σ s l) (renS σ s r) = renU σ s (numFlux sol small eps val G L gdet gammadet (σ d) l r) := by
  unfold numFlux
  simp only [renS, codeSpeeds_ren G L l.q hs eps l.g1 hl, codeSpeeds_ren G L r.q hs eps r.g1 hr, fluxF_ren G L _ hs, fluxU_ren G L _ hs]
  simp only [renU, comb_scale]

/-- **C142, C143 (signal speed of a face)**. -/
theorem numSpeed_ren (hs : 0 < s) (sol : MeshRun.Solver) (eps : ℝ) (d : Fin 3) (l r : FaceState) (hl : Fit s eps G L l) (hr : Fit s eps G L r) :
    numSpeed sol eps (renG σ G) (renL s L) d (renS σ s l) (renS σ s r) = numSpeed sol eps G L (σ d) l r := by
  unfold numSpeed
  simp only [renS, codeSpeeds_ren G L l.q hs eps l.g1 hl, codeSpeeds_ren G L r.q hs eps r.g1 hr]

/-- in a geometry with positive definite three-metric every state is admissible when the density floor is above the regulariser in both units. -/
theorem fit_of_floor (hp : PosDef G) (hg : 1 ≤ L.gamMax) (hsie : 0 ≤ L.sieFloor) (eps : ℝ) (hε : 0 < L.rhoFloor) (h1 : eps ≤ L.rhoFloor) (h2 : eps ≤ s ^ 2 * L.rhoFloor)
    (hmax : 0 ≤ L.sieMax) (l : FaceState) :
    Fit s eps G L l := by
  have hB : 0 ≤ fBdotB G l.q := by
    unfold fBdotB
    simp only [ADM.g4_ss]
    exact hp _
  have hv0 : 0 ≤ fVsq0 G L l.q := by
    unfold fVsq0
    simp only [ADM.g4_ss]
    exact hp _
  have hm : vsqMax L < 1 := by unfold vsqMax; have : 0 < 1 / (L.gamMax * L.gamMax) := by positivity
                               linarith
  have hm0 : 0 ≤ vsqMax L := by
    unfold vsqMax
    have : 1 / (L.gamMax * L.gamMax) ≤ 1 := by rw [div_le_one (by positivity)]; nlinarith
    linarith
  have hv : 0 ≤ fVsq G L l.q ∧ fVsq G L l.q < 1 := by
    unfold fVsq
    split_ifs with c
    · rw [mul_div_cancel₀ _ (by linarith : fVsq0 G L l.q ≠ 0)]
      exact ⟨hm0, hm⟩
    · exact ⟨hv0, by linarith⟩
  have hW : 1 ≤ fW G L l.q * fW G L l.q := by
    unfold fW
    rw [div_mul_div_comm, one_mul, Real.mul_self_sqrt (by linarith [hv.2]), le_div_iff₀ (by linarith [hv.2])]
    linarith [hv.1]
  have hW0 : fW G L l.q * fW G L l.q ≠ 0 := by linarith
  refine Or.inr ⟨?_, ?_⟩
  · have : fbsq G L l.q * fW G L l.q * fW G L l.q = fBdotB G l.q + fb0 G L l.q * fb0 G L l.q := by
      unfold fbsq
      rw [mul_assoc, div_mul_cancel₀ _ hW0]
    rw [this]
    nlinarith [mul_self_nonneg (fb0 G L l.q)]
  · have hr : L.rhoFloor ≤ fRho L l.q := le_max_right _ _
    have hr0 : 0 < fRho L l.q := by linarith
    have hu : 0 ≤ fU L l.q := by
      unfold fU
      split_ifs with c1 c2
      · exact mul_nonneg hr0.le hmax
      · have : 0 < l.q.u / fRho L l.q := by linarith
        exact (div_pos_iff_of_pos_right hr0).1 this |>.le
      · exact mul_nonneg hr0.le hsie
    have hP : 0 ≤ fP l.q := le_max_right _ _
    have hw : L.rhoFloor ≤ frhohWsq G L l.q := by
      unfold frhohWsq
      rw [mul_assoc]
      nlinarith
    exact ⟨by linarith, by nlinarith [sq_nonneg s]⟩

end Phoebus.Riemann
