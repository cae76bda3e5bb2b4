import Verif.Moments.Props
import Verif.Closure.Search

/-!
# C145: fields, fluxes and sources of the moment methods prefer no axis and no side
-/
namespace Phoebus.Moments
open Finset Geom Robust Rel Closure

/-! ### Specification -/

/-- a closure (`tp`: velocity, energy and flux to pressure tensor) that prefers no axis; `tp'` is the same closure in the new geometry. -/
def Isotropic (A : Axes) (tp tp' : Vec → ℝ → Vec → Tens2) : Prop := ∀ v J H, tp' (A.vec v) J (A.vec H) = A.ten (tp v J H)

/-- the state on one side of a face in the new description. -/
def sideNew (A : Axes) (s : Side) : Side := ⟨A.vec s.vp, s.J, A.vec s.h⟩

/-- a face normal to the new axis `d` in the new description: if the axis is reversed left and right change place. -/
noncomputable def faceNew (A : Axes) (d : Fin 3) (f : Face) : Face :=
  { G := A.geo f.G, sdet := f.sdet, dx := f.dx, dir := d, B := f.B,
    L := if A.s d = 1 then sideNew A f.L else sideNew A f.R, R := if A.s d = 1 then sideNew A f.R else sideNew A f.L,
    kl := if A.s d = 1 then f.kl else f.kr, kr := if A.s d = 1 then f.kr else f.kl, dJ := A.vec f.dJ }

/-! ### Proof -/

variable (A : Axes) (G : ADM ℝ)

theorem lorentz_axes (v : Vec) : lorentz (A.geo G).gam (A.vec v) = lorentz G.gam v := by
  unfold lorentz
  have : ∑ i, ∑ j, (A.geo G).gam i j * A.vec v i * A.vec v j = ∑ i, ∑ j, G.gam i j * v i * v j := by
    unfold Axes.vec Axes.geo Axes.ten
    rw [← Equiv.sum_comp A.σ fun i => ∑ j, G.gam i j * v i * v j]
    refine sum_congr rfl fun i _ => ?_
    rw [← Equiv.sum_comp A.σ fun j => G.gam (A.σ i) j * v (A.σ i) * v j]
    refine sum_congr rfl fun j _ => ?_
    linear_combination G.gam (A.σ i) (A.σ j) * v (A.σ i) * v (A.σ j) * (A.s j * A.s j * A.sq i + A.sq j)
  rw [this]

theorem vec_smul (k : ℝ) (v : Vec) : (fun i => A.vec v i * k) = A.vec fun i => v i * k := by funext i; simp only [Axes.vec]; ring

theorem vec_lmul (k : ℝ) (v : Vec) : (fun i => k * A.vec v i) = A.vec fun i => k * v i := by funext i; simp only [Axes.vec]; ring

theorem vec_div (k : ℝ) (v : Vec) : (fun i => A.vec v i / k) = A.vec fun i => v i / k := by funext i; simp only [Axes.vec]; ring

theorem threeVel_axes (vp : Vec) : threeVel (A.geo G) (A.vec vp) = A.vec (threeVel G vp) := by
  unfold threeVel; rw [lorentz_axes, vec_div]

/-- **C145** conserved fields of a cell. -/
theorem cellPrim2Con_axes (sdet : ℝ) (vp : Vec) (Pi Pi' : ℝ → Vec → Tens2) (hPi : ∀ J H, Pi' J (A.vec H) = A.ten (Pi J H)) (J : ℝ) (h : Vec) :
    cellPrim2Con sdet (A.geo G) (A.vec vp) Pi' J (A.vec h) = A.pair (cellPrim2Con sdet G vp Pi J h) := by
  unfold cellPrim2Con
  simp only [vec_smul, threeVel_axes, hPi, prim2con_axes]
  refine Prod.ext rfl ?_
  exact vec_lmul A _ _

/-- **C145** primitive fields of a cell. -/
theorem cellCon2Prim_axes (small : ℝ) (rob : Bool) (SMALL sdet : ℝ) (vp : Vec) (Pi : Tens2) (E : ℝ) (F : Vec) :
    let o := cellCon2Prim small rob SMALL sdet G vp Pi E F
    cellCon2Prim small rob SMALL sdet (A.geo G) (A.vec vp) (A.ten Pi) E (A.vec F) = ⟨o.E, A.vec o.F, o.J, A.vec o.h, o.ok⟩ := by
  have h1 : (1.0:ℝ) = 1 := by norm_num
  unfold cellCon2Prim
  simp only [h1, vec_smul, threeVel_axes, con2prim_axes]
  set r := con2prim small false rob SMALL G (threeVel G vp) Pi (E * (1 / sdet)) fun i => F i * (1 / sdet)
  simp only [show (A.pair r.2).1 = r.2.1 from rfl, show (A.pair r.2).2 = A.vec r.2.2 from rfl, prim2con_axes]
  congr 1
  · funext i
    simp only [Axes.pair, Axes.vec]
    split_ifs
    · ring
    · rfl
  · funext i
    simp only [Axes.vec, ratio_lin]

theorem sideV_axes (B : Bounds) (s : Side) : sideV (A.geo G) B (sideNew A s) = A.vec (sideV G B s) := by
  unfold sideV sideNew
  simp only [lorentz_axes]
  split_ifs <;> funext i <;> simp only [Axes.vec] <;> ring

theorem sideJ_axes (B : Bounds) (s : Side) : sideJ B (sideNew A s) = sideJ B s := rfl

theorem sideH0_axes (B : Bounds) (s : Side) : sideH0 B (sideNew A s) = A.vec (sideH0 B s) := by
  unfold sideH0
  rw [sideJ_axes]
  exact vec_lmul A _ _

theorem sideXi_axes (B : Bounds) (s : Side) : sideXi (A.geo G) B (sideNew A s) = sideXi G B s := by
  unfold sideXi
  rw [sideV_axes, sideH0_axes, hsq_axes, sideJ_axes]

theorem sideH_axes (B : Bounds) (s : Side) : sideH (A.geo G) B (sideNew A s) = A.vec (sideH G B s) := by
  unfold sideH
  simp only [sideXi_axes, sideH0_axes]
  split_ifs
  · exact vec_smul A _ _
  · rfl

theorem hAsym_axes (kmin kap : ℝ) (dJ : Vec) : hAsym kmin kap (A.vec dJ) = A.vec (hAsym kmin kap dJ) := by
  funext i; simp only [hAsym, Axes.vec]; ring

variable {A}

theorem faceKappa_comm (a b : ℝ) : faceKappa a b = faceKappa b a := by unfold faceKappa; rw [mul_comm]

variable (A) in
theorem faceKappa_new (d : Fin 3) (f : Face) : faceKappa (faceNew A d f).kl (faceNew A d f).kr = faceKappa f.kl f.kr := by
  unfold faceNew
  by_cases h : A.s d = 1
  · simp only [if_pos h]
  · simp only [if_neg h]; exact faceKappa_comm _ _

section side
variable {tp tp' : Vec → ℝ → Vec → Tens2} (ht : Isotropic A tp tp') (small kmin : ℝ) (d : Fin 3) (f : Face) (s : Side)
include ht

theorem sideCon_axes : sideCon tp' (faceNew A d f) (sideNew A s) = A.pair (sideCon tp f s) := by
  unfold sideCon
  simp only [show (faceNew A d f).G = A.geo f.G from rfl, show (faceNew A d f).B = f.B from rfl, sideV_axes, sideJ_axes, sideH_axes, ht _ _ _, prim2con_axes]

theorem sideThin_axes : sideFluxThin tp' (faceNew A d f) (sideNew A s) = (A.vec (sideFluxThin tp f s).1, A.ten (sideFluxThin tp f s).2) := by
  unfold sideFluxThin
  simp only [show (faceNew A d f).G = A.geo f.G from rfl, show (faceNew A d f).B = f.B from rfl, sideV_axes, sideJ_axes, sideH_axes, ht _ _ _, fluxes_axes]

theorem sideAsym_axes : sideFluxAsym tp' kmin (faceNew A d f) (sideNew A s) = (A.vec (sideFluxAsym tp kmin f s).1, A.ten (sideFluxAsym tp kmin f s).2) := by
  unfold sideFluxAsym
  simp only [faceKappa_new, show (faceNew A d f).dJ = A.vec f.dJ from rfl, show (faceNew A d f).G = A.geo f.G from rfl,
    show (faceNew A d f).B = f.B from rfl, sideV_axes, sideJ_axes, hAsym_axes, ht _ _ _, fluxes_axes]

theorem sideFlux_axes (hd : f.dir = A.σ d) :
    sideFlux small kmin tp' (faceNew A d f) (sideNew A s) = (A.s d * (sideFlux small kmin tp f s).1, fun j => A.s d * A.s j * (sideFlux small kmin tp f s).2 (A.σ j)) := by
  have ha : (faceNew A d f).a small = f.a small := by
    unfold Face.a; rw [faceKappa_new]; rfl
  unfold sideFlux
  simp only [ha, sideThin_axes ht, sideAsym_axes ht, sideCon_axes ht, show (faceNew A d f).dir = d from rfl, hd,
    show (faceNew A d f).G = A.geo f.G from rfl]
  refine Prod.ext ?_ ?_
  · simp only [Axes.vec, Axes.pair, Axes.geo]; ring
  · funext j
    simp only [Axes.vec, Axes.ten, Axes.pair, Axes.geo]; ring

end side

theorem abs_sign (A : Axes) (d : Fin 3) (x : ℝ) : |A.s d * x| = |x| := by
  rcases A.sign d with e | e <;> rw [e] <;> simp

theorem sig_axes (small : ℝ) (d : Fin 3) (f : Face) (hd : f.dir = A.σ d) : sig small (faceNew A d f) = sig small f := by
  have ha : (faceNew A d f).a small = f.a small := by
    unfold Face.a; rw [faceKappa_new]; rfl
  have hr : radSig (faceNew A d f) = radSig f := by
    unfold radSig Timestep.radSpeed
    simp only [faceNew, Axes.geo, Axes.vec, Axes.ten, hd]
    have e : A.s d * A.s d * f.G.gamInv (A.σ d) (A.σ d) = f.G.gamInv (A.σ d) (A.σ d) := by rw [A.sq, one_mul]
    rw [e]
    rcases A.sign d with h | h
    · rw [h]; simp only [one_mul]
    · rw [h]
      set x := f.G.alpha * Real.sqrt (f.G.gamInv (A.σ d) (A.σ d))
      rw [show -f.G.alpha * Real.sqrt (f.G.gamInv (A.σ d) (A.σ d)) = -x by ring, max_comm]
      rw [show x - -1 * f.G.beta (A.σ d) = -(-x - f.G.beta (A.σ d)) by ring, show -x - -1 * f.G.beta (A.σ d) = -(x - f.G.beta (A.σ d)) by ring, abs_neg, abs_neg]
  have hs : asymSig (faceNew A d f) = asymSig f := by
    unfold asymSig
    have key : ∀ s, |f.G.alpha * sideV (A.geo f.G) f.B (sideNew A s) d - (A.geo f.G).beta d| = |f.G.alpha * sideV f.G f.B s (A.σ d) - f.G.beta (A.σ d)| := by
      intro s
      rw [sideV_axes, show f.G.alpha * A.vec (sideV f.G f.B s) d - (A.geo f.G).beta d = A.s d * (f.G.alpha * sideV f.G f.B s (A.σ d) - f.G.beta (A.σ d)) by
        simp only [Axes.vec, Axes.geo]; ring, abs_sign]
    rw [hd]
    unfold faceNew
    by_cases h : A.s d = 1
    · simp only [if_pos h, show (A.geo f.G).alpha = f.G.alpha from rfl, key]
    · simp only [if_neg h, show (A.geo f.G).alpha = f.G.alpha from rfl, key]; exact max_comm _ _
  unfold sig
  rw [ha, hr, hs]

/-- **C145** the numerical flux at a face: the flux of the energy and of momentum component `j` in the new description, reversed if the axis is. -/
theorem faceFlux_axes {tp tp' : Vec → ℝ → Vec → Tens2} (ht : Isotropic A tp tp') (small SMALL kmin : ℝ) (d : Fin 3) (f : Face) (hd : f.dir = A.σ d) :
    faceFlux small SMALL kmin tp' (faceNew A d f) =
      (A.s d * (faceFlux small SMALL kmin tp f).1, fun j => A.s d * A.s j * (faceFlux small SMALL kmin tp f).2 (A.σ j)) := by
  have h5 : (0.5:ℝ) = 1 / 2 := by norm_num
  unfold faceFlux
  simp only [sig_axes small d f hd, show (faceNew A d f).sdet = f.sdet from rfl]
  by_cases hS : f.sdet < SMALL
  · simp only [if_pos hS, mul_zero]
  simp only [if_neg hS]
  by_cases h : A.s d = 1
  · have hL : (faceNew A d f).L = sideNew A f.L := if_pos h
    have hR : (faceNew A d f).R = sideNew A f.R := if_pos h
    simp only [hL, hR, sideFlux_axes ht small kmin d f _ hd, sideCon_axes ht]
    refine Prod.ext ?_ ?_
    · simp only [llf, Axes.pair, h, h5]; ring
    · funext j
      simp only [llf, Axes.pair, Axes.vec, h, h5]; ring
  · have h' : A.s d = -1 := (A.sign d).resolve_left h
    have hL : (faceNew A d f).L = sideNew A f.R := if_neg h
    have hR : (faceNew A d f).R = sideNew A f.L := if_neg h
    simp only [hL, hR, sideFlux_axes ht small kmin d f _ hd, sideCon_axes ht]
    refine Prod.ext ?_ ?_
    · simp only [llf, Axes.pair, h', h5]; ring
    · funext j
      simp only [llf, Axes.pair, Axes.vec, h', h5]; ring

/-- the closures of the code prefer no axis: Eddington and M1. -/
theorem closures_isotropic (A : Axes) (small : ℝ) (G : ADM ℝ) :
    Isotropic A (fun _ _ _ _ _ => 0) (fun _ _ _ _ _ => 0) ∧ Isotropic A (tilPiFromPrim small G) (tilPiFromPrim small (A.geo G)) := by
  constructor
  · intro v J H; funext i j; simp [Axes.ten]
  · intro v J H; exact fromPrim_axes A G small v J H

end Phoebus.Moments
