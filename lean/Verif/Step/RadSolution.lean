import Verif.Step.Solution
import Verif.Closure.Fluxes
import Verif.Sources.Props

/-!
# The radiation moments the program evolves are those of the covariant moment equations (C152)

Where the radiation stress-energy tensor obeys `∇_μ R^{μν} = κ_J (J_BB - J) u^ν - κ_H H^ν`, with any absorption and total opacities, in any smooth spacetime and any smooth flow, the densitised
energy and momentum the program stores change by the divergence of the fluxes it uses, the geometric sources it uses and the exchange terms its implicit solvers use.
-/
namespace Phoebus.Step
open Geom Sources Finset Filter
open Closure (Vec Tens2 radT fluidU restVec prim2con vvPi conVPi covVPi cc)

/-! ### Specification -/

/-- radiation field: velocity of the gas, pressure tensor over energy density (trace-free part), energy density and (covariant) flux in the frame of the gas. -/
structure RadField (Z : Type) where
  v : Z → Vec
  Pi : Z → Tens2
  J : Z → ℝ
  H : Z → Vec

/-- the radiation stress-energy tensor. -/
noncomputable def radStress (G : Event → ADM ℝ) (R : RadField Event) (Y : Event) : Fin 4 → Fin 4 → ℝ := radT (G Y) (R.v Y) (R.Pi Y) (R.J Y) (R.H Y)

/-- momentum and energy the radiation receives per unit volume and time: absorption and emission along the velocity of the gas, absorption and scattering of the flux. -/
noncomputable def fourForce (G : ADM ℝ) (v : Vec) (J : ℝ) (H : Vec) (kJ kH JBB : ℝ) (ν : Fin 4) : ℝ :=
  kJ * (JBB - J) * fluidU G v ν - kH * restVec G v (Closure.raise G H) ν

/-- the moment equations at an event. -/
def Transfer (G : Event → ADM ℝ) (R : RadField Event) (kJ kH JBB : ℝ) (X : Event) : Prop :=
  ∀ ν, divTens G (radStress G R) X ν = fourForce (G X) (R.v X) (R.J X) (R.H X) kJ kH JBB ν

/-- square root of the determinant of the spatial metric. -/
noncomputable def rootGam (G : ADM ℝ) : ℝ := √(Matrix.of G.gam).det

/-- the radiation variables the program stores: `√γ E`, `√γ F_i`. -/
noncomputable def radStored {Z : Type} (G : Z → ADM ℝ) (R : RadField Z) (Y : Z) : ℝ × Vec :=
  let c := prim2con false (G Y) (R.v Y) (R.Pi Y) (R.J Y) (R.H Y)
  (rootGam (G Y) * c.1, fun i => rootGam (G Y) * c.2 i)

/-- the fluxes the program uses: `√γ (α F^d - β^d E)`, `√γ (α P^d_i - β^d F_i)`. -/
noncomputable def radPhys {Z : Type} (G : Z → ADM ℝ) (R : RadField Z) (d : Fin 3) (Y : Z) : ℝ × Vec :=
  let c := prim2con false (G Y) (R.v Y) (R.Pi Y) (R.J Y) (R.H Y)
  let f := Closure.fluxes false (G Y) (R.v Y) (R.Pi Y) (R.J Y) (R.H Y)
  (rootGam (G Y) * (f.1 d - (G Y).beta d * c.1), fun i => rootGam (G Y) * (f.2 d i - (G Y).beta d * c.2 i))

/-- a family of radiation fields with differentiable components, with the velocity below the cap the program applies. -/
structure SmoothRad {Z : Type} [NormedAddCommGroup Z] [NormedSpace ℝ Z] (G : Z → ADM ℝ) (R : RadField Z) (z : Z) : Prop where
  v : ∀ i, DifferentiableAt ℝ (fun x => R.v x i) z
  Pi : ∀ i j, DifferentiableAt ℝ (fun x => R.Pi x i j) z
  J : DifferentiableAt ℝ R.J z
  H : ∀ i, DifferentiableAt ℝ (fun x => R.H x i) z
  slow : (G z).dot3 (R.v z) (R.v z) < 0.9999

/-! ### Algebra -/

theorem radT_comm {G : ADM ℝ} (hG : G.Valid) (v : Vec) (Pi : Tens2) (hPi : ∀ i j, Pi i j = Pi j i) (J : ℝ) (H : Vec) (m n : Fin 4) :
    radT G v Pi J H m n = radT G v Pi J H n m := by
  have hs : Closure.restTens G v Pi m n = Closure.restTens G v Pi n m := by
    unfold Closure.restTens
    have : (Fin.cons (fun _ => 0) (fun i => Fin.cons 0 (Pi i)) : Fin 4 → Fin 4 → ℝ) m n =
        (Fin.cons (fun _ => 0) (fun i => Fin.cons 0 (Pi i)) : Fin 4 → Fin 4 → ℝ) n m := by
      refine Fin.cases ?_ (fun i => ?_) m <;> refine Fin.cases ?_ (fun j => ?_) n <;> simp
      exact hPi i j
    rw [this]; ring
  unfold radT
  rw [hs, g4Inv_comm hG m n]; ring

theorem raise_lower {G : ADM ℝ} (hG : G.Valid) (x : Vec) (i : Fin 3) : Closure.raise G (Closure.lower G x) i = x i := by
  have : Closure.raise G (Closure.lower G x) i = ∑ k, (∑ j, G.gamInv i j * G.gam j k) * x k := by
    simp only [Closure.lower, Closure.raise, Fin.sum_univ_three]; ring
  rw [this]; simp only [hG.inv']; simp

/-- the tensor the source terms are computed from is the radiation stress-energy tensor. -/
theorem conT_radT {G : ADM ℝ} (hG : G.Valid) (v : Vec) (Pi : Tens2) (hPi : ∀ i j, Pi i j = Pi j i) (J : ℝ) (H : Vec) (h0 : (Closure.W G v ^ 2 - 1) * vvPi G v Pi * J = 0) (m n : Fin 4) :
    conT G (prim2con false G v Pi J H).1 (Closure.raise G (prim2con false G v Pi J H).2) (Closure.conP G v Pi J H) m n = radT G v Pi J H m n := by
  have ha := hG.alpha_ne
  have hE := (Closure.prim2con_tensor hG (v := v) Pi J H).1
  rw [h0, add_zero] at hE
  have hF : ∀ i, Closure.raise G (prim2con false G v Pi J H).2 i = (G.alpha * radT G v Pi J H 0 i.succ) + G.beta i * (G.alpha * radT G v Pi J H 0 0) := fun i => by
    have h1 := Closure.energy_flux_tensor hG (v := v) Pi J H i
    simp only [Closure.fluxes, Bool.false_eq_true, if_false] at h1
    have : G.alpha * Closure.raise G (prim2con false G v Pi J H).2 i = G.alpha * ((G.alpha * radT G v Pi J H 0 i.succ) + G.beta i * (G.alpha * radT G v Pi J H 0 0)) := by
      linear_combination h1
    exact mul_left_cancel₀ ha this
  refine Fin.cases ?_ (fun i => ?_) m <;> refine Fin.cases ?_ (fun j => ?_) n
  · simp only [conT, conN, Sources.spatial, Fin.cons_zero, hE]
    field_simp
    ring
  · simp only [conT, conN, Sources.spatial, Fin.cons_zero, Fin.cons_succ, hE, hF]
    field_simp
    ring
  · rw [radT_comm hG v Pi hPi]
    simp only [conT, conN, Sources.spatial, Fin.cons_zero, Fin.cons_succ, hE, hF]
    field_simp
    ring
  · simp only [conT, conN, Sources.spatial, Fin.cons_succ, hE, hF]
    simp only [Closure.conP, radT, fluidU, restVec, Closure.restTens, Closure.normal, Closure.spatial, Fin.cons_zero, Fin.cons_succ, ADM.g4Inv_00, ADM.g4Inv_0s, ADM.g4Inv_ss,
      Closure.dot_raise hG, Closure.W2]
    norm_num
    field_simp
    ring

/-! ### Calculus -/

section
variable {Z : Type} [NormedAddCommGroup Z] [NormedSpace ℝ Z] {G : Z → ADM ℝ} {R : RadField Z} {z : Z}

theorem lowerV_diff (hG : SmoothGeom G z) (x : Z → Vec) (hx : ∀ i, DifferentiableAt ℝ (fun y => x y i) z) (i : Fin 3) : DifferentiableAt ℝ (fun y => Closure.lower (G y) (x y) i) z := by
  unfold Closure.lower
  exact DifferentiableAt.fun_sum fun j _ => (hx j).mul (hG.gam i j)

theorem raiseV_diff (hG : SmoothGeom G z) (x : Z → Vec) (hx : ∀ i, DifferentiableAt ℝ (fun y => x y i) z) (i : Fin 3) : DifferentiableAt ℝ (fun y => Closure.raise (G y) (x y) i) z := by
  unfold Closure.raise
  exact DifferentiableAt.fun_sum fun j _ => (hx j).mul (hG.gamInv i j)

theorem cc_diff (x y : Z → Vec) (hx : ∀ i, DifferentiableAt ℝ (fun t => x t i) z) (hy : ∀ i, DifferentiableAt ℝ (fun t => y t i) z) : DifferentiableAt ℝ (fun t => cc (x t) (y t)) z := by
  unfold Closure.cc
  exact DifferentiableAt.fun_sum fun j _ => (hx j).mul (hy j)

theorem W_diff (hG : SmoothGeom G z) (hR : SmoothRad G R z) : DifferentiableAt ℝ (fun y => Closure.W (G y) (R.v y)) z := by
  have hd := cc_diff R.v (fun y => Closure.lower (G y) (R.v y)) hR.v (lowerV_diff hG R.v hR.v)
  have hs := hR.slow
  rw [← Closure.cc_lower] at hs
  have hpos : 0 < 1 - cc (R.v z) (Closure.lower (G z) (R.v z)) := by norm_num at hs ⊢; linarith
  have h1 : DifferentiableAt ℝ (fun y => 1 / √(1 - cc (R.v y) (Closure.lower (G y) (R.v y)))) z :=
    ddiv (differentiableAt_const _) (DifferentiableAt.sqrt (hd.const_sub 1) hpos.ne') (Real.sqrt_pos.2 hpos).ne'
  refine h1.congr_of_eventuallyEq ?_
  filter_upwards [hd.continuousAt.tendsto.eventually (gt_mem_nhds hs)] with y hy
  unfold Closure.W Closure.v2
  rw [min_eq_left hy.le]

theorem conVPi_diff (hG : SmoothGeom G z) (hR : SmoothRad G R z) (i : Fin 3) : DifferentiableAt ℝ (fun y => conVPi (G y) (R.v y) (R.Pi y) i) z := by
  unfold Closure.conVPi
  exact DifferentiableAt.fun_sum fun j _ => (lowerV_diff hG R.v hR.v j).mul (hR.Pi i j)

theorem vvPi_diff (hG : SmoothGeom G z) (hR : SmoothRad G R z) : DifferentiableAt ℝ (fun y => vvPi (G y) (R.v y) (R.Pi y)) z := by
  unfold Closure.vvPi
  exact DifferentiableAt.fun_sum fun j _ => (lowerV_diff hG R.v hR.v j).mul (conVPi_diff hG hR j)

theorem g4Inv_diff' (hG : SmoothGeom G z) (ha : (G z).alpha ≠ 0) (μ ν : Fin 4) : DifferentiableAt ℝ (fun x => (G x).g4Inv μ ν) z := by
  have a2 : DifferentiableAt ℝ (fun x => (G x).alpha ^ 2) z := hG.alpha.pow 2
  have an : (G z).alpha ^ 2 ≠ 0 := pow_ne_zero 2 ha
  refine Fin.cases ?_ (fun i => ?_) μ <;> refine Fin.cases ?_ (fun j => ?_) ν
  · simp only [ADM.g4Inv_00]; exact ddiv (differentiableAt_const _) a2 an
  · simp only [ADM.g4Inv_0s]; exact ddiv (hG.beta j) a2 an
  · simp only [ADM.g4Inv_s0]; exact ddiv (hG.beta i) a2 an
  · simp only [ADM.g4Inv_ss]; exact (hG.gamInv i j).sub (ddiv ((hG.beta i).mul (hG.beta j)) a2 an)

theorem normal_diff (hG : SmoothGeom G z) (ha : (G z).alpha ≠ 0) (μ : Fin 4) : DifferentiableAt ℝ (fun x => Closure.normal (G x) μ) z := by
  refine Fin.cases ?_ (fun i => ?_) μ
  · simp only [Closure.normal, Fin.cons_zero]; exact ddiv (differentiableAt_const _) hG.alpha ha
  · simp only [Closure.normal, Fin.cons_succ]; exact ddiv (hG.beta i).neg hG.alpha ha

theorem spatial_diff (x : Z → Vec) (hx : ∀ i, DifferentiableAt ℝ (fun t => x t i) z) (μ : Fin 4) : DifferentiableAt ℝ (fun t => Closure.spatial (x t) μ) z := by
  refine Fin.cases ?_ (fun i => ?_) μ
  · simp only [Closure.spatial, Fin.cons_zero]; exact differentiableAt_const _
  · simp only [Closure.spatial, Fin.cons_succ]; exact hx i

theorem radT_diff (hG : SmoothGeom G z) (hV : ∀ x, (G x).Valid) (hR : SmoothRad G R z) (m n : Fin 4) :
    DifferentiableAt ℝ (fun y => radT (G y) (R.v y) (R.Pi y) (R.J y) (R.H y) m n) z := by
  have ha := (hV z).alpha_ne
  have hW := W_diff hG hR
  have hN := normal_diff hG ha
  have hu : ∀ μ, DifferentiableAt ℝ (fun y => fluidU (G y) (R.v y) μ) z := fun μ => by
    unfold Closure.fluidU
    exact hW.mul ((hN μ).add (spatial_diff R.v hR.v μ))
  have hr : ∀ μ, DifferentiableAt ℝ (fun y => restVec (G y) (R.v y) (Closure.raise (G y) (R.H y)) μ) z := fun μ => by
    simp only [Closure.restVec, fun y => Closure.dot_raise (hV y)]
    exact ((cc_diff R.v R.H hR.v hR.H).mul (hN μ)).add (spatial_diff _ (raiseV_diff hG R.H hR.H) μ)
  have ht : DifferentiableAt ℝ (fun y => Closure.restTens (G y) (R.v y) (R.Pi y) m n) z := by
    have h1 := vvPi_diff hG hR
    have h2 := fun μ => spatial_diff (fun y => conVPi (G y) (R.v y) (R.Pi y)) (conVPi_diff hG hR) μ
    have h3 : DifferentiableAt ℝ (fun y => (Fin.cons (fun _ => 0) (fun i => Fin.cons 0 (R.Pi y i)) : Fin 4 → Fin 4 → ℝ) m n) z := by
      refine Fin.cases ?_ (fun i => ?_) m
      · simp only [Fin.cons_zero]; exact differentiableAt_const _
      · refine Fin.cases ?_ (fun j => ?_) n
        · simp only [Fin.cons_succ, Fin.cons_zero]; exact differentiableAt_const _
        · simp only [Fin.cons_succ]; exact hR.Pi i j
    unfold Closure.restTens
    exact ((((h1.mul (hN m)).mul (hN n)).add ((hN m).mul (h2 n))).add ((h2 m).mul (hN n))).add h3
  unfold Closure.radT
  exact (((hR.J.mul ((((hu m).const_mul _).mul (hu n)).add ((g4Inv_diff' hG ha m n).const_mul _))).add ((hu m).mul (hr n))).add ((hr m).mul (hu n))).add (hR.J.mul ht)

end

/-! ### The balance laws -/

/-- the exchange terms: what the force on the radiation does to energy and momentum is what the implicit solvers of the program use (`BackwardEuler`, with optical depths `α κ` per unit time). -/
theorem exchange_terms {G : ADM ℝ} (hG : G.Valid) (v : Vec) (J : ℝ) (H : Vec) (kJ kH JBB : ℝ) :
    G.alpha * fourForce G v J H kJ kH JBB 0 = Closure.W G v * kJ * (JBB - J) - kH * cc v H ∧
    ∀ i : Fin 3, ∑ ν, G.g4 ν i.succ * fourForce G v J H kJ kH JBB ν = Closure.W G v * kJ * Closure.lower G v i * (JBB - J) - kH * H i := by
  have ha := hG.alpha_ne
  constructor
  · simp only [fourForce, Closure.fluidU, Closure.restVec, Closure.normal, Closure.spatial, Fin.cons_zero, Closure.dot_raise hG]
    field_simp
    ring
  · intro i
    have hn : ∑ n, G.g4 n i.succ * Closure.normal G n = 0 := by
      rw [Fin.sum_univ_succ]
      simp only [Closure.normal, Fin.cons_zero, Fin.cons_succ, ADM.g4_0s, ADM.g4_ss, ADM.betaCov]
      rw [sum_mul, ← sum_add_distrib]
      refine sum_eq_zero fun j _ => ?_
      rw [hG.symm j i]; field_simp; ring
    have hsp : ∀ x : Vec, ∑ n, G.g4 n i.succ * Closure.spatial x n = Closure.lower G x i := by
      intro x
      rw [Fin.sum_univ_succ]
      simp only [Closure.spatial, Fin.cons_zero, Fin.cons_succ, ADM.g4_ss, mul_zero, zero_add, Closure.lower]
      exact sum_congr rfl fun j _ => by rw [hG.symm j i, mul_comm]
    have e : ∑ ν, G.g4 ν i.succ * fourForce G v J H kJ kH JBB ν = kJ * (JBB - J) * Closure.W G v * (∑ n, G.g4 n i.succ * Closure.normal G n + ∑ n, G.g4 n i.succ * Closure.spatial v n)
        - kH * (cc v H * ∑ n, G.g4 n i.succ * Closure.normal G n + ∑ n, G.g4 n i.succ * Closure.spatial (Closure.raise G H) n) := by
      simp only [fourForce, Closure.fluidU, Closure.restVec, Closure.dot_raise hG, Fin.sum_univ_four]; ring
    rw [e, hn, hsp, hsp, Closure.lower_raise hG]
    ring

section
variable {G : Event → ADM ℝ} {R : RadField Event} {X : Event}

/-- **C152** the balance laws of the radiation variables the program stores. -/
theorem rad_balance (hG : SmoothGeom G X) (hV : ∀ Y, (G Y).Valid) (ha : ∀ Y, 0 < (G Y).alpha) (hp : ∀ Y, Rel.PosDef (G Y)) (hR : SmoothRad G R X) (hPi : ∀ Y i j, R.Pi Y i j = R.Pi Y j i)
    (h0 : ∀ Y, (Closure.W (G Y) (R.v Y) ^ 2 - 1) * vvPi (G Y) (R.v Y) (R.Pi Y) * R.J Y = 0) {kJ kH JBB : ℝ} (hT : Transfer G R kJ kH JBB X) (h : Vec) (hh : ∀ i, R.J X * h i = R.H X i) :
    let src := radSources (G X) (R.v X) (rootGam (G X)) (metricDeriv G X) (fun m => pd m (fun Y => Real.log (G Y).alpha) X) (radStored G R X).1 (radStored G R X).2 (R.J X) h (R.Pi X)
    pd 0 (fun Y => (radStored G R Y).1) X = -∑ d : Fin 3, pd d.succ (fun Y => (radPhys G R d Y).1) X + src.1 +
      rootGam (G X) * (Closure.W (G X) (R.v X) * ((G X).alpha * kJ) * (JBB - R.J X) - (G X).alpha * kH * cc (R.v X) (R.H X)) ∧
    ∀ i : Fin 3, pd 0 (fun Y => (radStored G R Y).2 i) X = -∑ d : Fin 3, pd d.succ (fun Y => (radPhys G R d Y).2 i) X + src.2 i +
      rootGam (G X) * (Closure.W (G X) (R.v X) * ((G X).alpha * kJ) * Closure.lower (G X) (R.v X) i * (JBB - R.J X) - (G X).alpha * kH * R.H X i) := by
  intro src
  have st := flow_spacetime hG hV ha hp
  have hr := rootDet_diff st
  have hD := radT_diff hG hV hR
  have hroot : ∀ Y, rootDet (G Y) = (G Y).alpha * rootGam (G Y) := fun Y => sqrt_det_g4 _ (hV Y) (ha Y)
  have hg0 : rootGam (G X) ≠ 0 := by
    intro hz
    have h1 := det_gam_pos (G X) (hV X) (hp X)
    exact (Real.sqrt_pos.2 h1).ne' hz
  obtain ⟨x0, x1⟩ := exchange_terms (hV X) (R.v X) (R.J X) (R.H X) kJ kH JBB
  have eT : conT (G X) ((radStored G R X).1 / rootGam (G X)) (Closure.raise (G X) fun i => (radStored G R X).2 i / rootGam (G X))
      (Closure.conP (G X) (R.v X) (R.Pi X) (R.J X) fun i => R.J X * h i) = radStress G R X := by
    funext m n
    have e1 : (radStored G R X).1 / rootGam (G X) = (prim2con false (G X) (R.v X) (R.Pi X) (R.J X) (R.H X)).1 := by
      simp only [radStored]; rw [mul_div_assoc, mul_comm, div_mul_cancel₀ _ hg0]
    have e2 : (fun i => (radStored G R X).2 i / rootGam (G X)) = (prim2con false (G X) (R.v X) (R.Pi X) (R.J X) (R.H X)).2 := by
      funext i; simp only [radStored]; rw [mul_div_assoc, mul_comm, div_mul_cancel₀ _ hg0]
    have e3 : (fun i => R.J X * h i) = R.H X := funext hh
    rw [e1, e2, e3]
    exact conT_radT (hV X) _ _ (hPi X) _ _ (h0 X) m n
  have hsym : ∀ Y m n, radStress G R Y m n = radStress G R Y n m := fun Y m n => radT_comm (hV Y) _ _ (hPi Y) _ _ m n
  have es1 : src.1 = energySourceValencia 0 (G X) (rootDet (G X)) (metricDeriv G X) (fun m => pd m (fun Y => Real.log (G Y).alpha) X) (radStress G R X) := by
    rw [hroot, ← (rad_eq_fluid (G X) (rootGam (G X)) _ _ _).1]
    simp only [src, radSources, eT]
  have es2 : ∀ i, src.2 i = momentumSource (rootDet (G X)) (metricDeriv G X) (radStress G R X) i := fun i => by
    rw [hroot, ← (rad_eq_fluid (G X) (rootGam (G X)) (metricDeriv G X) (fun m => pd m (fun Y => Real.log (G Y).alpha) X) (radStress G R X)).2]
    simp only [src, radSources, eT]
  constructor
  · rw [es1, add_assoc]
    refine as_current (G := G) (fun Y μ => (G Y).alpha * radStress G R Y μ 0) (fun Y => ?_) (fun d Y => ?_) _ ?_
    · simp only [radStored]
      rw [(Closure.prim2con_tensor (hV Y) (v := R.v Y) _ _ _).1, h0 Y, hroot]
      simp only [radStress]; ring
    · simp only [radPhys]
      have e := Closure.energy_flux_tensor (hV Y) (v := R.v Y) (R.Pi Y) (R.J Y) (R.H Y) d
      rw [(Closure.prim2con_tensor (hV Y) (v := R.v Y) _ _ _).1, h0 Y, add_zero, e, hroot, hsym Y d.succ 0]
      simp only [radStress]; ring
    · have e : ∀ μ, pd μ (fun Y => rootDet (G Y) * ((G Y).alpha * radStress G R Y μ 0)) X =
          pd μ (fun Y => (G Y).alpha) X * (rootDet (G X) * radStress G R X μ 0) + (G X).alpha * pd μ (fun Y => rootDet (G Y) * radStress G R Y μ 0) X := fun μ => by
        rw [← pd_mul (g := fun Y => rootDet (G Y) * radStress G R Y μ 0) hG.alpha (hr.fun_mul (hD μ 0))]
        congr 1
        funext Y; ring
      simp only [e, sum_add_distrib, ← mul_sum]
      rw [density_tens st (radStress G R) hD, hT 0]
      unfold energySourceValencia
      simp only [gcon0_eq]
      have ela : ∀ m, pd m (fun Y => (G Y).alpha) X = (G X).alpha * pd m (fun Y => Real.log (G Y).alpha) X := fun m => by
        unfold pd
        rw [(hG.alpha.hasFDerivAt.log (ha X).ne').fderiv]
        simp only [_root_.smul_apply, smul_eq_mul]
        rw [← mul_assoc, mul_inv_cancel₀ (ha X).ne', one_mul]
      have e1 : ∑ μ, pd μ (fun Y => (G Y).alpha) X * (rootDet (G X) * radStress G R X μ 0) =
          rootDet (G X) * (G X).alpha * ∑ m, radStress G R X m 0 * pd m (fun Y => Real.log (G Y).alpha) X := by
        rw [mul_sum]
        exact sum_congr rfl fun m _ => by rw [ela]; ring
      have e2 : ∑ μ, ∑ l, christoffel G X 0 μ l * radStress G R X μ l =
          ∑ m, ∑ n, radStress G R X m n * ∑ r, (G X).g4Inv 0 r * GeomUtils.connection (metricDeriv G X) r m n := by
        refine sum_congr rfl fun a _ => sum_congr rfl fun b _ => ?_
        rw [mul_comm]
        congr 1
        unfold christoffel GeomUtils.connection
        refine sum_congr rfl fun s _ => ?_
        rw [metricDeriv_comm st s b a, metricDeriv_comm st s a b]
        ring
      rw [e1, e2, hroot]
      linear_combination ((G X).alpha * rootGam (G X)) * x0
  · intro i
    rw [es2, add_assoc]
    refine as_current (G := G) (fun Y μ => ∑ ν, radStress G R Y μ ν * (G Y).g4 ν i.succ) (fun Y => ?_) (fun d Y => ?_) _ ?_
    · simp only [radStored]
      rw [(Closure.prim2con_tensor (hV Y) (v := R.v Y) _ _ _).2 i, hroot]
      simp only [radStress]; ring
    · simp only [radPhys]
      rw [Closure.momentum_flux_tensor (hV Y) (v := R.v Y) (R.Pi Y) false (R.J Y) (R.H Y) d i, hroot]
      simp only [radStress]; ring
    · rw [density_mixed st (radStress G R) hD]
      simp only [hT _]
      rw [x1 i, hroot]
      unfold momentumSource GeomUtils.connection
      have e : ∑ m, ∑ n, radStress G R X m n * (metricDeriv G X n i.succ m - (metricDeriv G X i.succ n m + metricDeriv G X i.succ m n - metricDeriv G X m n i.succ) / 2) =
          ∑ m, ∑ n, radStress G R X m n * (metricDeriv G X n i.succ m - 1/2 * (metricDeriv G X n i.succ m + metricDeriv G X m i.succ n - metricDeriv G X n m i.succ)) := by
        refine sum_congr rfl fun a _ => sum_congr rfl fun b _ => ?_
        rw [metricDeriv_comm st i.succ b a, metricDeriv_comm st i.succ a b, metricDeriv_comm st a b i.succ]
        ring
      rw [e]
      ring

end

/-! ### Examples: a beam of light with intensity `1 + x - t`, in gas at rest and in moving gas -/

/-- a beam along the first axis in gas with velocity `v` along it: energy density and flux in the frame of the gas are `J0`, `H0` times `1 + x - t`, `p` and `q` the pressure tensor over the energy density
along and across the beam. -/
noncomputable def beam (v J0 H0 p q : ℝ) : RadField Event where
  v := fun _ => ![v, 0, 0]
  Pi := fun _ => ![![p, 0, 0], ![0, q, 0], ![0, 0, q]]
  J := fun Y => J0 * (1 + Y 1 - Y 0)
  H := fun Y => ![H0 * (1 + Y 1 - Y 0), 0, 0]

theorem beam_profile (c : ℝ) (μ : Fin 4) (X : Event) : pd μ (fun Y => (1 + Y 1 - Y 0) * c) X = (if μ = 1 then 1 else if μ = 0 then -1 else 0) * c := by
  have h1 : HasFDerivAt (fun Y : Event => (1 + Y 1 - Y 0) * c) (c • (ContinuousLinearMap.proj (R := ℝ) (φ := fun _ : Fin 4 => ℝ) 1 -
      ContinuousLinearMap.proj (R := ℝ) (φ := fun _ : Fin 4 => ℝ) 0)) X :=
    (((ContinuousLinearMap.proj (R := ℝ) (φ := fun _ : Fin 4 => ℝ) 1).hasFDerivAt.const_add 1).sub
      ((ContinuousLinearMap.proj (R := ℝ) (φ := fun _ : Fin 4 => ℝ) 0).hasFDerivAt)).mul_const c
  unfold pd
  rw [h1.fderiv]
  fin_cases μ <;> simp

theorem beam_smooth (v J0 H0 p q : ℝ) (hv : v * v < 0.9999) (X : Event) : SmoothRad (fun _ => C2P.flat) (beam v J0 H0 p q) X where
  v := fun i => differentiableAt_const _
  Pi := fun i j => differentiableAt_const _
  J := by show DifferentiableAt ℝ (fun Y : Event => J0 * (1 + Y 1 - Y 0)) X; fun_prop
  H := fun i => by
    fin_cases i
    · show DifferentiableAt ℝ (fun Y : Event => H0 * (1 + Y 1 - Y 0)) X; fun_prop
    · exact differentiableAt_const _
    · exact differentiableAt_const _
  slow := by simpa [beam, C2P.flat, ADM.dot3, Fin.sum_univ_three] using hv

theorem flat_smooth (X : Event) : SmoothGeom (fun _ : Event => C2P.flat) X :=
  ⟨differentiableAt_const _, fun _ => differentiableAt_const _, fun _ _ => differentiableAt_const _, fun _ _ => differentiableAt_const _⟩

/-- the stress tensor of the beam is the intensity times a constant tensor. -/
theorem beam_stress (v J0 H0 p q : ℝ) (Y : Event) (m n : Fin 4) :
    radStress (fun _ => C2P.flat) (beam v J0 H0 p q) Y m n = (1 + Y 1 - Y 0) * radT C2P.flat ![v, 0, 0] ![![p, 0, 0], ![0, q, 0], ![0, 0, q]] J0 ![H0, 0, 0] m n := by
  have e : ∀ μ, restVec C2P.flat ![v, 0, 0] (Closure.raise C2P.flat ![H0 * (1 + Y 1 - Y 0), 0, 0]) μ = (1 + Y 1 - Y 0) * restVec C2P.flat ![v, 0, 0] (Closure.raise C2P.flat ![H0, 0, 0]) μ := fun μ => by
    have e1 : Closure.raise C2P.flat ![H0 * (1 + Y 1 - Y 0), 0, 0] = fun i => (1 + Y 1 - Y 0) * Closure.raise C2P.flat ![H0, 0, 0] i := by
      funext i
      simp only [Closure.raise, Fin.sum_univ_three, Matrix.cons_val_zero, Matrix.cons_val_one, Matrix.cons_val]; ring
    rw [e1]
    have e2 : ∀ (x : Vec) (c : ℝ), Closure.spatial (fun i => c * x i) μ = c * Closure.spatial x μ := fun x c => by
      refine Fin.cases ?_ (fun i => ?_) μ <;> simp [Closure.spatial]
    simp only [Closure.restVec, e2, ADM.dot3, Fin.sum_univ_three]
    ring
  unfold radStress Closure.radT
  simp only [beam, e]
  ring

theorem beam_transfer (v J0 H0 p q JBB : ℝ) (h : ∀ ν, radT C2P.flat ![v, 0, 0] ![![p, 0, 0], ![0, q, 0], ![0, 0, q]] J0 ![H0, 0, 0] 1 ν = radT C2P.flat ![v, 0, 0] ![![p, 0, 0], ![0, q, 0], ![0, 0, q]] J0 ![H0, 0, 0] 0 ν)
    (X : Event) : Transfer (fun _ => C2P.flat) (beam v J0 H0 p q) 0 0 JBB X := by
  intro ν
  unfold divTens
  simp only [flat_christoffel, zero_mul, sum_const_zero, add_zero, beam_stress, beam_profile]
  simp [Fin.sum_univ_four, h, fourForce]

theorem flat_W {v w : ℝ} (hv : v * v < 0.9999) (hw : 0 < w) (h : w * w * (1 - v * v) = 1) : Closure.W C2P.flat ![v, 0, 0] = w := by
  have h1 : Closure.cc ![v, 0, 0] (Closure.lower C2P.flat ![v, 0, 0]) = v * v := by simp [Closure.cc, Closure.lower, C2P.flat, Fin.sum_univ_three]
  have h2 : 1 - v * v = (1 / w) ^ 2 := by field_simp; linarith
  unfold Closure.W Closure.v2
  rw [h1, min_eq_left hv.le, h2, Real.sqrt_sq (by positivity)]
  field_simp

/-- the components of the constant tensor. -/
theorem flat_radT {v w J0 H0 p q : ℝ} (hW : Closure.W C2P.flat ![v, 0, 0] = w) : radT C2P.flat ![v, 0, 0] ![![p, 0, 0], ![0, q, 0], ![0, 0, q]] J0 ![H0, 0, 0] =
    ![![J0 * (4/3 * w * w - 1/3) + 2 * w * v * H0 + J0 * (v * v * p), J0 * (4/3 * w * w * v) + w * H0 + w * v * (v * H0) + J0 * (v * p), 0, 0],
      ![J0 * (4/3 * w * w * v) + w * H0 + w * v * (v * H0) + J0 * (v * p), J0 * (4/3 * w * w * v * v + 1/3) + 2 * w * v * H0 + J0 * p, 0, 0],
      ![0, 0, J0 * (1/3 + q), 0], ![0, 0, 0, J0 * (1/3 + q)]] := by
  have ea : C2P.flat.alpha = 1 := rfl
  have eb : ∀ i, C2P.flat.beta i = 0 := fun _ => rfl
  have er : ∀ x : Vec, Closure.raise C2P.flat x = x := fun x => by funext i; simp [Closure.raise, C2P.flat]
  have el : ∀ x : Vec, Closure.lower C2P.flat x = x := fun x => by funext i; simp [Closure.lower, C2P.flat]
  have ed : C2P.flat.dot3 ![v, 0, 0] ![H0, 0, 0] = v * H0 := by simp [ADM.dot3, C2P.flat, Fin.sum_univ_three]
  have ec : conVPi C2P.flat ![v, 0, 0] ![![p, 0, 0], ![0, q, 0], ![0, 0, q]] = ![v * p, 0, 0] := by
    funext i
    simp only [Closure.conVPi, el, Fin.sum_univ_three]
    fin_cases i <;> simp
  have ev : vvPi C2P.flat ![v, 0, 0] ![![p, 0, 0], ![0, q, 0], ![0, 0, q]] = v * v * p := by
    simp only [Closure.vvPi, el, ec, Fin.sum_univ_three]
    simp; ring
  have eg : ∀ i j : Fin 3, C2P.flat.gamInv i j = if i = j then 1 else 0 := fun _ _ => rfl
  funext m n
  refine Fin.cases ?_ (fun i => ?_) m <;> refine Fin.cases ?_ (fun j => ?_) n <;>
    simp only [Closure.radT, Closure.fluidU, Closure.restVec, Closure.restTens, Closure.normal, Closure.spatial, er, ed, ec, ev, hW, ea, eb, Fin.cons_zero, Fin.cons_succ, ADM.g4Inv_00, ADM.g4Inv_0s, ADM.g4Inv_s0,
      ADM.g4Inv_ss, eg]
  · simp; ring
  · fin_cases j <;> simp <;> ring
  · fin_cases i <;> simp <;> ring
  · fin_cases i <;> fin_cases j <;> simp <;> ring

/-- **C152 (concrete)** a beam in gas at rest, with the pressure tensor of free streaming, satisfies the hypotheses of `rad_balance`. -/
theorem ex_beam_rest (X : Event) : SmoothRad (fun _ => C2P.flat) (beam 0 1 1 (2/3) (-1/3)) X ∧ Transfer (fun _ => C2P.flat) (beam 0 1 1 (2/3) (-1/3)) 0 0 0 X ∧
    (∀ Y, (Closure.W C2P.flat ((beam 0 1 1 (2/3) (-1/3)).v Y) ^ 2 - 1) * vvPi C2P.flat ((beam 0 1 1 (2/3) (-1/3)).v Y) ((beam 0 1 1 (2/3) (-1/3)).Pi Y) * (beam 0 1 1 (2/3) (-1/3)).J Y = 0) ∧
    radStress (fun _ => C2P.flat) (beam 0 1 1 (2/3) (-1/3)) X 0 0 = 1 + X 1 - X 0 := by
  have hW : Closure.W C2P.flat ![0, 0, 0] = 1 := flat_W (by norm_num) (by norm_num) (by norm_num)
  refine ⟨beam_smooth _ _ _ _ _ (by norm_num) X, beam_transfer _ _ _ _ _ _ (fun ν => ?_) X, fun Y => ?_, ?_⟩
  · rw [flat_radT hW]
    fin_cases ν <;> simp <;> norm_num
  · show (Closure.W C2P.flat ![0, 0, 0] ^ 2 - 1) * _ * _ = 0
    rw [hW]; ring
  · rw [beam_stress, flat_radT hW]
    simp; norm_num

/-- the beam seen from gas moving along it with three fifths of the speed of light. -/
noncomputable def movingBeam : RadField Event := beam (3/5) (1/4) (5/16) (25/24) (-1/3)

theorem moving_W : Closure.W C2P.flat ![3/5, 0, 0] = 5/4 := flat_W (by norm_num) (by norm_num) (by norm_num)

/-- **C152 fails in moving gas with the M1 closure**: a beam of light in flat space, in gas moving along it, without any interaction, with the pressure tensor the M1 closure computes, solves the moment
equations; but the energy variable the program stores does not change by the divergence of the flux it uses: the rates differ by the factor `539/512`. -/
theorem moving_beam_wrong : (∀ X, SmoothRad (fun _ => C2P.flat) movingBeam X ∧ Transfer (fun _ => C2P.flat) movingBeam 0 0 0 X) ∧
    (∀ Y, 0 < 1 + Y 1 - Y 0 → movingBeam.Pi Y = Closure.tilPiFromPrim 0 C2P.flat (movingBeam.v Y) (movingBeam.J Y) (movingBeam.H Y)) ∧
    (∀ Y, movingBeam.J Y * (5/4) = movingBeam.H Y 0) ∧
    ∀ X, pd 0 (fun Y => (radStored (fun _ => C2P.flat) movingBeam Y).1) X = -539/512 ∧
      -∑ d : Fin 3, pd d.succ (fun Y => (radPhys (fun _ => C2P.flat) movingBeam d Y).1) X +
        (radSources C2P.flat (movingBeam.v X) (rootGam C2P.flat) (metricDeriv (fun _ => C2P.flat) X) (fun m => pd m (fun _ => Real.log C2P.flat.alpha) X)
          (radStored (fun _ => C2P.flat) movingBeam X).1 (radStored (fun _ => C2P.flat) movingBeam X).2 (movingBeam.J X) ![5/4, 0, 0] (movingBeam.Pi X)).1 = -1 := by
  have hW := moving_W
  have hK : ∀ ν, radT C2P.flat ![3/5, 0, 0] ![![25/24, 0, 0], ![0, -1/3, 0], ![0, 0, -1/3]] (1/4) ![5/16, 0, 0] 1 ν =
      radT C2P.flat ![3/5, 0, 0] ![![25/24, 0, 0], ![0, -1/3, 0], ![0, 0, -1/3]] (1/4) ![5/16, 0, 0] 0 ν := fun ν => by
    rw [flat_radT hW]
    fin_cases ν <;> simp <;> norm_num
  have hdet : rootGam C2P.flat = 1 := by
    unfold rootGam
    have : (Matrix.of C2P.flat.gam) = 1 := by ext i j; simp [C2P.flat, Matrix.one_apply]
    rw [this]; simp
  have h00 : radT C2P.flat ![3/5, 0, 0] ![![25/24, 0, 0], ![0, -1/3, 0], ![0, 0, -1/3]] (1/4) ![5/16, 0, 0] 0 0 = 1 := by
    rw [flat_radT hW]; simp; norm_num
  have hvv : vvPi C2P.flat ![3/5, 0, 0] ![![25/24, 0, 0], ![0, -1/3, 0], ![0, 0, -1/3]] = 3/8 := by
    simp [Closure.vvPi, Closure.conVPi, Closure.lower, C2P.flat, Fin.sum_univ_three]; norm_num
  have hst : ∀ Y, radStress (fun _ => C2P.flat) movingBeam Y = fun m n => (1 + Y 1 - Y 0) * radT C2P.flat ![3/5, 0, 0] ![![25/24, 0, 0], ![0, -1/3, 0], ![0, 0, -1/3]] (1/4) ![5/16, 0, 0] m n :=
    fun Y => by funext m n; exact beam_stress _ _ _ _ _ Y m n
  have hE : ∀ Y, (prim2con false C2P.flat (movingBeam.v Y) (movingBeam.Pi Y) (movingBeam.J Y) (movingBeam.H Y)).1 = (1 + Y 1 - Y 0) * (539/512) := fun Y => by
    rw [(Closure.prim2con_tensor C2P.flat_valid.1 _ _ _).1]
    have e1 : radT C2P.flat (movingBeam.v Y) (movingBeam.Pi Y) (movingBeam.J Y) (movingBeam.H Y) = radStress (fun _ => C2P.flat) movingBeam Y := rfl
    have e2 : Closure.W C2P.flat (movingBeam.v Y) = 5/4 := hW
    have e3 : vvPi C2P.flat (movingBeam.v Y) (movingBeam.Pi Y) = 3/8 := hvv
    have e4 : movingBeam.J Y = 1/4 * (1 + Y 1 - Y 0) := rfl
    have e5 : C2P.flat.alpha = 1 := rfl
    rw [e1, e2, e3, e4, e5, hst]
    simp only [h00]
    ring
  have hF : ∀ d Y, (radPhys (fun _ => C2P.flat) movingBeam d Y).1 = (1 + Y 1 - Y 0) * radT C2P.flat ![3/5, 0, 0] ![![25/24, 0, 0], ![0, -1/3, 0], ![0, 0, -1/3]] (1/4) ![5/16, 0, 0] 0 d.succ := fun d Y => by
    have e := Closure.energy_flux_tensor C2P.flat_valid.1 (v := movingBeam.v Y) (movingBeam.Pi Y) (movingBeam.J Y) (movingBeam.H Y) d
    have eb : C2P.flat.beta d = 0 := rfl
    have ea : C2P.flat.alpha = 1 := rfl
    have e1 : radT C2P.flat (movingBeam.v Y) (movingBeam.Pi Y) (movingBeam.J Y) (movingBeam.H Y) = radStress (fun _ => C2P.flat) movingBeam Y := rfl
    rw [eb, ea, e1, hst, zero_mul, sub_zero, one_pow, one_mul] at e
    simp only [radPhys, hdet, eb, zero_mul, sub_zero, one_mul]
    exact e
  refine ⟨fun X => ⟨beam_smooth _ _ _ _ _ (by norm_num) X, beam_transfer _ _ _ _ _ _ hK X⟩, fun Y hY => ?_, fun Y => ?_, fun X => ⟨?_, ?_⟩⟩
  · set c := 1 + Y 1 - Y 0 with hc
    have hv : movingBeam.v Y = ![3/5, 0, 0] := rfl
    have hJ : movingBeam.J Y = 1/4 * c := rfl
    have hH : movingBeam.H Y = ![5/16 * c, 0, 0] := rfl
    have hP : movingBeam.Pi Y = ![![25/24, 0, 0], ![0, -1/3, 0], ![0, 0, -1/3]] := rfl
    rw [hv, hJ, hH, hP]
    have hq : cc ![5/16 * c, 0, 0] (Closure.raise C2P.flat ![5/16 * c, 0, 0]) - cc ![5/16 * c, 0, 0] ![3/5, 0, 0] ^ 2 = (c / 4) ^ 2 := by
      simp [Closure.cc, Closure.raise, C2P.flat, Fin.sum_univ_three]; ring
    have hd : Closure.fluxDir 0 C2P.flat ![3/5, 0, 0] ![5/16 * c, 0, 0] = ![5/4, 0, 0] := by
      funext i
      unfold Closure.fluxDir
      rw [hq, Real.sqrt_sq (by positivity), Rel.ratio_zero]
      fin_cases i
      · simp [Closure.raise, C2P.flat, Fin.sum_univ_three]; field_simp; norm_num
      · simp [Closure.raise, C2P.flat, Fin.sum_univ_three]
      · simp [Closure.raise, C2P.flat, Fin.sum_univ_three]
    have hx : Closure.fluxFactor 0 C2P.flat ![3/5, 0, 0] (1/4 * c) ![5/16 * c, 0, 0] = 1 := by
      unfold Closure.fluxFactor
      rw [hq, Real.sqrt_sq (by positivity), Rel.ratio_zero, show c / 4 / (1/4 * c) = 1 by field_simp]
      norm_num
    unfold Closure.tilPiFromPrim
    rw [hd, hx]
    funext i j
    simp only [Closure.tilPi, Closure.eddFactor_limits.2.2.2, Closure.W2, hW]
    fin_cases i <;> fin_cases j <;> simp [C2P.flat] <;> norm_num
  · show 1/4 * (1 + Y 1 - Y 0) * (5/4) = 5/16 * (1 + Y 1 - Y 0)
    ring
  · have : (fun Y => (radStored (fun _ => C2P.flat) movingBeam Y).1) = fun Y => (1 + Y 1 - Y 0) * (539/512) := by
      funext Y; simp only [radStored, hdet, hE, one_mul]
    rw [this, beam_profile]; norm_num
  · have hm : metricDeriv (fun _ => C2P.flat) X = fun _ _ _ => 0 := by
      funext a b s; simp [metricDeriv, pd]
    have hsrc : ∀ Ec Fc J h Pi v, (radSources C2P.flat v (rootGam C2P.flat) (metricDeriv (fun _ => C2P.flat) X) (fun m => pd m (fun _ => Real.log C2P.flat.alpha) X) Ec Fc J h Pi).1 = 0 := by
      intro Ec Fc J h Pi v
      simp [radSources, radEnergySource, hm, GeomUtils.connection, pd]
    rw [hsrc, add_zero]
    simp only [hF, beam_profile]
    rw [flat_radT hW]
    simp [Fin.sum_univ_three]; norm_num

end Phoebus.Step
