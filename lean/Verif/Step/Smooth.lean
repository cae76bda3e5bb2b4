import Verif.Step.Contact
import Verif.Recon.Stable
import Mathlib.Analysis.Calculus.FDeriv.Prod
import Mathlib.Analysis.Calculus.Deriv.Comp
import Mathlib.Analysis.Calculus.Deriv.Slope
import Mathlib.Analysis.SpecialFunctions.Sqrt

/-!
# The fluxes of the code are differentiable, its signal speeds continuous, away from floors and ceilings
-/
namespace Phoebus.Step
open FluxSweep Geom Riemann Rel

section
variable {Z : Type} [NormedAddCommGroup Z] [NormedSpace ℝ Z]

/-- a family of geometries with differentiable components. -/
structure SmoothGeom (G : Z → ADM ℝ) (z : Z) : Prop where
  alpha : DifferentiableAt ℝ (fun x => (G x).alpha) z
  beta : ∀ i, DifferentiableAt ℝ (fun x => (G x).beta i) z
  gam : ∀ i j, DifferentiableAt ℝ (fun x => (G x).gam i j) z
  gamInv : ∀ i j, DifferentiableAt ℝ (fun x => (G x).gamInv i j) z

/-- a family of fluid states with differentiable components. -/
structure SmoothPrim (q : Z → Prim) (z : Z) : Prop where
  rho : DifferentiableAt ℝ (fun x => (q x).rho) z
  u : DifferentiableAt ℝ (fun x => (q x).u) z
  P : DifferentiableAt ℝ (fun x => (q x).P) z
  v : ∀ i, DifferentiableAt ℝ (fun x => (q x).v i) z
  B : ∀ i, DifferentiableAt ℝ (fun x => (q x).B i) z

variable {G : Z → ADM ℝ} {q : Z → Prim} {z : Z}

theorem ddiv {f g : Z → ℝ} (hf : DifferentiableAt ℝ f z) (hg : DifferentiableAt ℝ g z) (h : g z ≠ 0) : DifferentiableAt ℝ (fun x => f x / g x) z := by
  simp only [div_eq_mul_inv]
  exact hf.mul (hg.inv h)

theorem lorentz_diff (hG : SmoothGeom G z) (hq : SmoothPrim q z) (hp : PosDef (G z)) : DifferentiableAt ℝ (fun x => lorentz (G x).gam (q x).v) z := by
  unfold lorentz
  refine DifferentiableAt.sqrt ?_ ?_
  · refine (differentiableAt_const _).add (DifferentiableAt.fun_sum fun i _ => DifferentiableAt.fun_sum fun j _ => ((hG.gam i j).mul (hq.v i)).mul (hq.v j))
  · have := lorentz_sq (G z) hp (q z).v
    have h1 := lorentz_pos (G z) hp (q z).v
    unfold lorentz at h1
    exact (Real.sqrt_pos.1 h1).ne'

theorem g4_diff (hG : SmoothGeom G z) (μ ν : Fin 4) : DifferentiableAt ℝ (fun x => (G x).g4 μ ν) z := by
  have hb : ∀ i, DifferentiableAt ℝ (fun x => (G x).betaCov i) z := fun i => by
    unfold ADM.betaCov
    exact DifferentiableAt.fun_sum fun j _ => (hG.gam i j).mul (hG.beta j)
  refine Fin.cases ?_ (fun i => ?_) μ <;> refine Fin.cases ?_ (fun j => ?_) ν
  · simp only [ADM.g4_00, ADM.dot3]
    exact (hG.alpha.pow 2).neg.add (DifferentiableAt.fun_sum fun i _ => DifferentiableAt.fun_sum fun j _ => ((hG.gam i j).mul (hG.beta i)).mul (hG.beta j))
  · simpa only [ADM.g4_0s] using hb j
  · simpa only [ADM.g4_s0] using hb i
  · simpa only [ADM.g4_ss] using hG.gam i j

theorem tBdotv_diff (hG : SmoothGeom G z) (hq : SmoothPrim q z) (hp : PosDef (G z)) : DifferentiableAt ℝ (fun x => tBdotv (G x) (q x)) z := by
  have hW := lorentz_diff hG hq hp
  have hW0 := (lorentz_pos (G z) hp (q z).v).ne'
  unfold tBdotv
  exact DifferentiableAt.fun_sum fun i _ => DifferentiableAt.fun_sum fun j _ => ((hq.B i).mul (ddiv (hq.v j) hW hW0)).mul (hG.gam i j)

theorem tbsq_diff (hG : SmoothGeom G z) (hq : SmoothPrim q z) (hp : PosDef (G z)) : DifferentiableAt ℝ (fun x => tbsq 0 (G x) (q x)) z := by
  have hW := lorentz_diff hG hq hp
  have hW0 := (lorentz_pos (G z) hp (q z).v).ne'
  have hBv := tBdotv_diff hG hq hp
  unfold tbsq tBsq
  simp only [ratio_zero]
  have h1 : DifferentiableAt ℝ (fun x => 1 / lorentz (G x).gam (q x).v) z := ddiv (differentiableAt_const _) hW hW0
  exact (((DifferentiableAt.fun_sum fun i _ => DifferentiableAt.fun_sum fun j _ => ((hq.B i).mul (hq.B j)).mul (hG.gam i j)).mul h1).mul h1).add (hBv.mul hBv)

theorem tU_diff (hG : SmoothGeom G z) (hq : SmoothPrim q z) (ha : ∀ x, 0 < (G x).alpha) (hp : PosDef (G z)) (μ : Fin 4) :
    DifferentiableAt ℝ (fun x => tU 0 (G x) (q x) μ) z := by
  have hW := lorentz_diff hG hq hp
  simp only [fun x => tU_split (G x) (q x) (ha x)]
  refine Fin.cases ?_ (fun i => ?_) μ
  · exact ddiv hW hG.alpha (ha z).ne'
  · exact (hq.v i).sub ((ddiv hW hG.alpha (ha z).ne').mul (hG.beta i))

theorem tB_diff (hG : SmoothGeom G z) (hq : SmoothPrim q z) (ha : ∀ x, 0 < (G x).alpha) (hp : PosDef (G z)) (μ : Fin 4) :
    DifferentiableAt ℝ (fun x => tB 0 (G x) (q x) μ) z := by
  have hW := lorentz_diff hG hq hp
  have hW0 := (lorentz_pos (G z) hp (q z).v).ne'
  have hBv := tBdotv_diff hG hq hp
  have hU := tU_diff hG hq ha hp
  unfold tB
  simp only [ratio_zero]
  refine Fin.cases ?_ (fun i => ?_) μ
  · exact (hU 0).mul hBv
  · exact (ddiv (differentiableAt_const (1 : ℝ)) hW hW0).mul ((hq.B i).add ((hG.alpha.mul ((hU 0).mul hBv)).mul (hU i.succ)))

theorem slot_diff (S : Z → Slots) (h0 : DifferentiableAt ℝ (fun x => (S x).rho) z) (h1 : ∀ i, DifferentiableAt ℝ (fun x => (S x).mom i) z)
    (h2 : DifferentiableAt ℝ (fun x => (S x).eng) z) (h3 : ∀ i, DifferentiableAt ℝ (fun x => (S x).B i) z) (h4 : DifferentiableAt ℝ (fun x => (S x).ye) z) (k : ℕ) :
    DifferentiableAt ℝ (fun x => slot (S x) k) z := by
  unfold slot
  split_ifs
  exacts [h0, h1 0, h1 1, h1 2, h2, h3 0, h3 1, h3 2, h4, differentiableAt_const _]

theorem fluxU_diff (val : Bool) (L : Z → Limits) (ye : Z → ℝ) (hye : DifferentiableAt ℝ ye z) (hG : SmoothGeom G z) (hq : SmoothPrim q z) (ha : ∀ x, 0 < (G x).alpha)
    (hv : ∀ x, (G x).Valid) (hp : ∀ x, PosDef (G x)) (hi : ∀ᶠ x in nhds z, Inactive (G x) (L x) (q x)) (k : ℕ) :
    DifferentiableAt ℝ (fun x => slot (fluxU val (G x) (L x) (ye x) (q x)) k) z := by
  have hW := lorentz_diff hG hq (hp z)
  have hW0 := (lorentz_pos (G z) (hp z) (q z).v).ne'
  have ha0 := (ha z).ne'
  have hU := tU_diff hG hq ha (hp z)
  have hB := tB_diff hG hq ha (hp z)
  have hbsq := tbsq_diff hG hq (hp z)
  have hBv := tBdotv_diff hG hq (hp z)
  have hg := g4_diff hG
  have hE : DifferentiableAt ℝ (fun x => (q x).rho + (q x).u + (q x).P) z := (hq.rho.add hq.u).add hq.P
  have hlow : ∀ (w : Z → Fin 4 → ℝ), (∀ μ, DifferentiableAt ℝ (fun x => w x μ) z) → ∀ μ, DifferentiableAt ℝ (fun x => ∑ ν, (G x).g4 μ ν * w x ν) z :=
    fun w hw μ => DifferentiableAt.fun_sum fun ν _ => (hg μ ν).mul (hw ν)
  have hlow' : ∀ (w : Z → Fin 4 → ℝ), (∀ μ, DifferentiableAt ℝ (fun x => w x μ) z) → ∀ μ, DifferentiableAt ℝ (fun x => lower (G x).g4 (w x) μ) z :=
    fun w hw μ => DifferentiableAt.fun_sum fun ν _ => (hw ν).mul (hg ν μ)
  have hrho : DifferentiableAt ℝ (fun x => (q x).rho * lorentz (G x).gam (q x).v) z := hq.rho.mul hW
  have hmom : ∀ m : Fin 3, DifferentiableAt ℝ (fun x => (((q x).rho + (q x).u + (q x).P) * lorentz (G x).gam (q x).v * lorentz (G x).gam (q x).v +
      tbsq 0 (G x) (q x) * lorentz (G x).gam (q x).v * lorentz (G x).gam (q x).v) * (∑ n : Fin 3, (G x).g4 m.succ n.succ * ((q x).v n / lorentz (G x).gam (q x).v)) -
      lorentz (G x).gam (q x).v * tBdotv (G x) (q x) * lower (G x).g4 (tB 0 (G x) (q x)) m.succ) z := fun m =>
    ((((hE.mul hW).mul hW).add ((hbsq.mul hW).mul hW)).mul (DifferentiableAt.fun_sum fun n _ => (hg _ _).mul (ddiv (hq.v n) hW hW0))).sub
      ((hW.mul hBv).mul (hlow' _ hB _))
  have heng : DifferentiableAt ℝ (fun x => (fluxU val (G x) (L x) (ye x) (q x)).eng) z := by
    cases val
    · have : DifferentiableAt ℝ (fun x => (G x).alpha * (((q x).rho + (q x).u + (q x).P + tbsq 0 (G x) (q x)) * tU 0 (G x) (q x) 0 * (∑ ν, (G x).g4 0 ν * tU 0 (G x) (q x) ν) +
          (q x).P + 0.5 * tbsq 0 (G x) (q x)) - tB 0 (G x) (q x) 0 * (∑ ν, (G x).g4 0 ν * tB 0 (G x) (q x) ν) + (q x).rho * lorentz (G x).gam (q x).v) z :=
        ((hG.alpha.mul (((((hE.add hbsq).mul (hU 0)).mul (hlow _ hU 0)).add hq.P).add (hbsq.const_mul _))).sub ((hB 0).mul (hlow _ hB 0))).add hrho
      refine this.congr_of_eventuallyEq (hi.mono fun x hx => ?_)
      simp only [fluxU, Bool.false_eq_true, if_false, fRho_eq hx, fU_eq hx, fP_eq hx, fW_eq hx (hp x), fbsq_eq hx (hp x), fucon_eq hx (hp x) (ha x), fbcon_eq hx (hp x) (ha x)]
    · have : DifferentiableAt ℝ (fun x => ((q x).rho + (q x).u + (q x).P) * lorentz (G x).gam (q x).v * lorentz (G x).gam (q x).v +
          tbsq 0 (G x) (q x) * lorentz (G x).gam (q x).v * lorentz (G x).gam (q x).v - ((q x).P + 0.5 * tbsq 0 (G x) (q x)) -
          lorentz (G x).gam (q x).v * tBdotv (G x) (q x) * (lorentz (G x).gam (q x).v * tBdotv (G x) (q x)) - (q x).rho * lorentz (G x).gam (q x).v) z :=
        (((((hE.mul hW).mul hW).add ((hbsq.mul hW).mul hW)).sub (hq.P.add (hbsq.const_mul _))).sub ((hW.mul hBv).mul (hW.mul hBv))).sub hrho
      refine this.congr_of_eventuallyEq (hi.mono fun x hx => ?_)
      simp only [fluxU, if_true, fRho_eq hx, fU_eq hx, fP_eq hx, fW_eq hx (hp x), frhohWsq, fbsq_eq hx (hp x), fb0, fBdotv_eq hx (hp x)]
  refine slot_diff _ ?_ ?_ heng ?_ ?_ k
  · refine hrho.congr_of_eventuallyEq (hi.mono fun x hx => ?_)
    simp only [fluxU, fRho_eq hx, fW_eq hx (hp x)]
  · intro m
    refine (hmom m).congr_of_eventuallyEq (hi.mono fun x hx => ?_)
    simp only [fluxU, fRho_eq hx, fU_eq hx, fP_eq hx, fW_eq hx (hp x), frhohWsq, fbsq_eq hx (hp x), fvcov, fV_eq hx (hp x), fb0, fBdotv_eq hx (hp x), fbcov_eq hx (hp x) (hv x) (ha x)]
  · intro m
    exact hq.B m
  · refine (hrho.mul hye).congr_of_eventuallyEq (hi.mono fun x hx => ?_)
    simp only [fluxU, fRho_eq hx, fW_eq hx (hp x), Pi.mul_apply]

theorem g4Inv_diff (hG : SmoothGeom G z) (ha : 0 < (G z).alpha) (μ ν : Fin 4) :
    DifferentiableAt ℝ (fun x => (G x).g4Inv μ ν) z := by
  have h2 : DifferentiableAt ℝ (fun x => (G x).alpha ^ 2) z := hG.alpha.pow 2
  have h0 : (G z).alpha ^ 2 ≠ 0 := by positivity
  refine Fin.cases ?_ (fun i => ?_) μ <;> refine Fin.cases ?_ (fun j => ?_) ν
  · exact ddiv (differentiableAt_const _) h2 h0
  · exact ddiv (hG.beta j) h2 h0
  · exact ddiv (hG.beta i) h2 h0
  · exact (hG.gamInv i j).sub (ddiv ((hG.beta i).mul (hG.beta j)) h2 h0)

theorem fluxF_diff (val : Bool) (L : Z → Limits) (ye : Z → ℝ) (hye : DifferentiableAt ℝ ye z) (hG : SmoothGeom G z)
    (hq : SmoothPrim q z) (ha : ∀ x, 0 < (G x).alpha)
    (hv : ∀ x, (G x).Valid) (hp : ∀ x, PosDef (G x)) (hi : ∀ᶠ x in nhds z, Inactive (G x) (L x) (q x)) (d : Fin 3) (k : ℕ) :
    DifferentiableAt ℝ (fun x => slot (fluxF val (G x) (L x) (ye x) (q x) d) k) z := by
  have hW := lorentz_diff hG hq (hp z)
  have hW0 := (lorentz_pos (G z) (hp z) (q z).v).ne'
  have hU := tU_diff hG hq ha (hp z)
  have hB := tB_diff hG hq ha (hp z)
  have hbsq := tbsq_diff hG hq (hp z)
  have hg := g4_diff hG
  have hgI := g4Inv_diff hG (ha z)
  have hE : DifferentiableAt ℝ (fun x => (q x).rho + (q x).u + (q x).P) z := (hq.rho.add hq.u).add hq.P
  have hT : ∀ μ ν, DifferentiableAt ℝ (fun x => tmunu 0 (G x) (q x) μ ν) z := fun μ ν => by
    unfold tmunu
    exact ((((hE.add hbsq).mul (hU μ)).mul (hU ν)).add ((hq.P.add (hbsq.const_mul _)).mul (hgI μ ν))).sub ((hB μ).mul (hB ν))
  have hM : ∀ μ ν, DifferentiableAt ℝ (fun x => mixed (G x).g4 (tmunu 0 (G x) (q x)) μ ν) z := fun μ ν =>
    DifferentiableAt.fun_sum fun l _ => (hT μ l).mul (hg l ν)
  have hrho : DifferentiableAt ℝ (fun x => (q x).rho * tU 0 (G x) (q x) d.succ) z := hq.rho.mul (hU _)
  have hdr : ∀ i, DifferentiableAt ℝ (fun x => (q x).v i / lorentz (G x).gam (q x).v - (G x).beta i / (G x).alpha) z := fun i =>
    (ddiv (hq.v i) hW hW0).sub (ddiv (hG.beta i) hG.alpha (ha z).ne')
  have key := hi.mono fun x hx => flux_physical val (G x) (L x) (ye x) (q x) d (hv x) (ha x) (hp x) hx
  refine slot_diff _ (hrho.congr_of_eventuallyEq (key.mono fun x h => h.1)) (fun m => (hM _ _).congr_of_eventuallyEq (key.mono fun x h => h.2.2.1 m)) ?_
    (fun m => (((hq.B m).mul (hdr d)).sub ((hq.B d).mul (hdr m))).congr_of_eventuallyEq (key.mono fun x h => h.2.2.2.2.2 m))
    ((hrho.mul hye).congr_of_eventuallyEq (key.mono fun x h => h.2.1)) k
  cases val
  · exact ((hM _ _).add hrho).congr_of_eventuallyEq (key.mono fun x h => h.2.2.2.2.1)
  · exact ((hG.alpha.mul (hT _ _)).sub hrho).congr_of_eventuallyEq (key.mono fun x h => h.2.2.2.1)

theorem speeds_cont (eps : ℝ) (he : 0 < eps) (he1 : eps < 1/2) (L : Z → Limits) (g1 : Z → ℝ) (hg1 : ContinuousAt g1 z) (hG : SmoothGeom G z) (hq : SmoothPrim q z) (hp : ∀ x, PosDef (G x))
    (hi : ∀ᶠ x in nhds z, Inactive (G x) (L x) (q x)) (d : Fin 3) : ContinuousAt (fun x => MeshRun.codeSpeeds eps (G x) (L x) (g1 x) (q x) d) z := by
  have hW := (lorentz_diff hG hq (hp z)).continuousAt
  have hW0 := (lorentz_pos (G z) (hp z) (q z).v).ne'
  have hbsq := (tbsq_diff hG hq (hp z)).continuousAt
  have hE : ContinuousAt (fun x => (q x).rho + (q x).u + (q x).P) z := ((hq.rho.add hq.u).add hq.P).continuousAt
  have hrW : ContinuousAt (fun x => frhohWsq (G x) (L x) (q x)) z := by
    refine ((hE.mul hW).mul hW).congr (hi.mono fun x hx => ?_)
    simp only [frhohWsq, fRho_eq hx, fU_eq hx, fP_eq hx, fW_eq hx (hp x), Pi.mul_apply]
  have hfW : ContinuousAt (fun x => fW (G x) (L x) (q x)) z := hW.congr (hi.mono fun x hx => (fW_eq hx (hp x)).symm)
  have hfb : ContinuousAt (fun x => fbsq (G x) (L x) (q x)) z := hbsq.congr (hi.mono fun x hx => (fbsq_eq hx (hp x)).symm)
  have hfP : ContinuousAt (fun x => fP (q x)) z := hq.P.continuousAt.congr (hi.mono fun x hx => (fP_eq hx).symm)
  have hvs : ContinuousAt (fun x => fVsq (G x) (L x) (q x)) z := by
    refine (continuousAt_const.sub (continuousAt_const.div (hW.pow 2) (pow_ne_zero 2 hW0)) : ContinuousAt (fun x => 1 - 1 / lorentz (G x).gam (q x).v ^ 2) z).congr (hi.mono fun x hx => ?_)
    exact (fVsq_eq hx (hp x)).symm
  have hve : ContinuousAt (fun x => fV (G x) (L x) (q x) d) z := by
    refine ((hq.v d).continuousAt.div hW hW0).congr (hi.mono fun x hx => ?_)
    simp only [fV_eq hx (hp x)]; rfl
  have hmp : ∀ f : Z → ℝ, ContinuousAt f z → ContinuousAt (fun x => Robust.makePositive eps (f x)) z := fun f hf => hf.max continuousAt_const
  have hmp0 : ∀ y : ℝ, Robust.makePositive eps y ≠ 0 := fun y => (lt_of_lt_of_le he (le_max_right _ _)).ne'
  have hmb : ∀ f : Z → ℝ, ContinuousAt f z → ContinuousAt (fun x => Robust.makeBounded eps (f x) 0 1) z := fun f hf => (hf.max continuousAt_const).min continuousAt_const
  have hcm : ContinuousAt (fun x => fcmsq eps (G x) (L x) (g1 x) (q x)) z := by
    unfold fcmsq
    have hbW := (hfb.mul hfW).mul hfW
    have cs := hmb _ ((((hg1.mul hfP).mul hfW).mul hfW).div (hmp _ hrW) (hmp0 _))
    exact hmb _ (cs.add ((hbW.div (hmp _ (hrW.add hbW)) (hmp0 _)).mul (continuousAt_const.sub cs)))
  have hden : 1 - fVsq (G z) (L z) (q z) * fcmsq eps (G z) (L z) (g1 z) (q z) ≠ 0 := by
    have hx := hi.self_of_nhds
    obtain ⟨c0, c1⟩ := Riemann.cmsq_bounds eps (G z) (L z) (g1 z) (q z) he he1
    have h1 := lorentz_ge_one (G z) (hp z) (q z).v
    have hv1 : fVsq (G z) (L z) (q z) < 1 := by
      rw [fVsq_eq hx (hp z)]; have : 0 < 1 / lorentz (G z).gam (q z).v ^ 2 := by positivity
      linarith
    nlinarith
  have hcs : ∀ s, ContinuousAt (fun x => charSpeed eps (G x).alpha ((G x).beta d) ((G x).gamInv d d) (fVsq (G x) (L x) (q x)) (fV (G x) (L x) (q x) d)
      (fcmsq eps (G x) (L x) (g1 x) (q x)) s) z := by
    intro s
    unfold charSpeed
    have v0 := hve.mul (continuousAt_const.sub hcm : ContinuousAt (fun x => 1 - fcmsq eps (G x) (L x) (g1 x) (q x)) z)
    have dn : ContinuousAt (fun x => 1 - fVsq (G x) (L x) (q x) * fcmsq eps (G x) (L x) (g1 x) (q x)) z := continuousAt_const.sub (hvs.mul hcm)
    exact ((hG.alpha.continuousAt.div dn hden).mul (v0.add (continuousAt_const.mul (Real.continuous_sqrt.continuousAt.comp (hmp _
      ((hcm.mul (continuousAt_const.sub hvs)).mul (((hG.gamInv d d).continuousAt.mul dn).sub (hve.mul v0)))))))).sub (hG.beta d).continuousAt
  unfold MeshRun.codeSpeeds
  exact (hcs (-1)).prodMk (hcs 1)

end
end Phoebus.Step
