import Verif.Closure.M1
import Verif.Timestep.Model
import Verif.Sources.Model

/-!
# Model of `/repo/src/radiation/moments.cpp`: field conversions, reconstruction slots, face gradients and fluxes

The closure enters through the contractions of `Verif/Closure/Model.lean` and through `tp`, the function `GetConTilPiFromPrim` of the closure
(velocity, energy and flux to projected pressure tensor): zero for Eddington, `Closure.tilPiFromPrim` for M1, the stored tensor for MOCMC.  All closures are
instantiated with `energy_conserve` (`num = false`).  `small` is the regulariser of `robust::ratio`.
-/
namespace Phoebus.Moments
open Geom Rel Robust Closure Finset

/-! ### conversions between conserved and primitive fields -/

/-- `con_v`, moments.cpp:102-107 and 222-226. -/
noncomputable def threeVel (G : ADM ℝ) (vp : Vec) : Vec := fun i => vp i / lorentz G.gam vp

/-- body of `MomentPrim2ConImpl`, moments.cpp:216-253: `h` is the stored ratio `H/J`; result is the densitised `(E, F)`. -/
noncomputable def cellPrim2Con (sdet : ℝ) (G : ADM ℝ) (vp : Vec) (Pi : ℝ → Vec → Tens2) (J : ℝ) (h : Vec) : ℝ × Vec :=
  let H : Vec := fun i => h i * J
  let r := prim2con false G (threeVel G vp) (Pi J H) J H
  (sdet * r.1, fun i => sdet * r.2 i)

/-- what `MomentCon2PrimImpl` writes for one species of one cell.
(moments.cpp, the stores at the end of `MomentCon2PrimImpl` cited below.) -/
structure C2POut where
  E : ℝ
  F : Vec
  J : ℝ
  h : Vec
  ok : Bool

/-- body of `MomentCon2PrimImpl`, moments.cpp:98-155; `Pi` is the tensor obtained at lines 120-138. -/
noncomputable def cellCon2Prim (small : ℝ) (rob : Bool) (SMALL : ℝ) (sdet : ℝ) (G : ADM ℝ) (vp : Vec) (Pi : Tens2) (cE : ℝ) (cF : Vec) : C2POut :=
  let isdet := 1.0 / sdet
  let v := threeVel G vp
  let E := cE * isdet
  let F : Vec := fun i => cF i * isdet
  let r := con2prim small false rob SMALL G v Pi E F
  let J := r.2.1
  let H := r.2.2
  let mod := r.1 = Status.modified
  let q := prim2con false G v Pi J H
  ⟨if mod then q.1 / isdet else cE, fun i => if mod then q.2 i / isdet else cF i, J, fun i => ratio small (H i) J,
    decide (r.1 = Status.modified ∨ r.1 = Status.success)⟩

/-- `c2pfail` after the species loop of a cell, moments.cpp:89-97, 154-155: the field has no species index, every species overwrites
it; `order` is the order in which the species happen to be processed. -/
def cellFlag (ok : ℕ → Bool) (order : List ℕ) (before : Bool) : Bool := order.foldl (fun _ s => ok s) before

/-! ### reconstruction -/

/-- slot written for variable `n` and direction `d`: `ReconstructionIndexer`, moments.cpp:46-50. -/
def slotWrite (nrecon offset d n : ℕ) : ℕ := d * nrecon + n + offset

/-- `FlatIdx::operator()(i, j, k)` of a variable of shape `(n1, n2, n3)` (Parthenon): first index fastest.
(Parthenon contract.) -/
def flat3 (offset n1 n2 i j k : ℕ) : ℕ := offset + (i + n1 * (j + n2 * k))

/-- slot read for species `s`, component `c` and direction `d`, moments.cpp:625-636, 682-683 (radiation.cpp:446, 478-488): `ql` has shape
`(nspec, ncomp, ndim)`. -/
def slotRead (nspec ncomp offset s c d : ℕ) : ℕ := flat3 offset nspec ncomp s c d

/-- position in the pack `{J, H, tilPi}` of species `s`, component `c`: `J` (`c = 0`), then `H` of shape `(nspec, 3)` (`c = 1, 2, 3`), then `tilPi`
of shape `(nspec, 3, 3)` (`c = 4 + i + 3 j`), moments.cpp:306 (radiation.cpp:448-455, 513-517). -/
def packVar (nspec s c : ℕ) : ℕ :=
  if c = 0 then s
  else if c < 4 then nspec + (s + nspec * (c - 1))
  else nspec + 3 * nspec + (s + nspec * ((c - 4) % 3 + 3 * ((c - 4) / 3)))

/-- the variable the reconstruction loop handles at step `n`: `(true, i)` is radiation variable `i`, `(false, i)` velocity component `i`,
moments.cpp:340-341. -/
def reconVar (nrecon n : ℕ) : Bool × ℕ := (decide (n < nrecon), n % nrecon)

/-- gradients of `J` at faces, moments.cpp:424-473: `J k j i`, face normal direction `d`, `dj`, `dk` the offsets, `dx` the widths; result component `c`. -/
noncomputable def faceGrad (J : ℤ → ℤ → ℤ → ℝ) (dj dk : ℤ) (dx : Fin 3 → ℝ) (d c : Fin 3) (k j i : ℤ) : ℝ :=
  let w := 1.0 / dx c
  let w4 := 0.25 * w
  match d, c with
  | 0, 0 => (J k j i - J k j (i - 1)) * w
  | 0, 1 => (J k (j + dj) i + J k (j + dj) (i - 1) - J k (j - dj) i - J k (j - dj) (i - 1)) * w4
  | 0, 2 => (J (k + dk) j i + J (k + dk) j (i - 1) - J (k - dk) j i - J (k - dk) j (i - 1)) * w4
  | 1, 0 => (J k j (i + 1) + J k (j - dj) (i + 1) - J k j (i - 1) - J k (j - dj) (i - 1)) * w4
  | 1, 1 => (J k j i - J k (j - dj) i) * w
  | 1, 2 => (J (k + dk) j i + J (k + dk) (j - dj) i - J (k - dk) j i - J (k - dk) (j - dj) i) * w4
  | 2, 0 => (J k j (i + 1) + J (k - dk) j (i + 1) - J k j (i - 1) - J (k - dk) j (i - 1)) * w4
  | 2, 1 => (J k (j + dj) i + J (k - dk) (j + dj) i - J k (j - dj) i - J (k - dk) (j - dj) i) * w4
  | 2, 2 => (J k j i - J (k - dk) j i) * w

/-! ### fluxes -/

/-- reconstructed state on one side of a face.
(Data type of the model of the flux computation of moments.cpp.) -/
structure Side where
  vp : Vec
  J : ℝ
  h : Vec

/-- bounds at the face, moments.cpp:571-578; `on` is `recon_fixup_strategy == bounds`. -/
structure Bounds where
  on : Bool
  Wc : ℝ
  Jfloor : ℝ
  xiMax : ℝ

/-- `con_vl`, moments.cpp:593-614. -/
noncomputable def sideV (G : ADM ℝ) (B : Bounds) (s : Side) : Vec :=
  let W := lorentz G.gam s.vp
  if B.on = true ∧ W > B.Wc then fun i => s.vp i * (Real.sqrt (B.Wc * B.Wc - 1) / (W * W - 1)) / B.Wc
  else fun i => s.vp i / W

/-- `Jl`, moments.cpp:625-630. -/
noncomputable def sideJ (B : Bounds) (s : Side) : ℝ := if B.on = true then max s.J B.Jfloor else s.J

/-- `Hl` before the ceiling, moments.cpp:631-636. -/
noncomputable def sideH0 (B : Bounds) (s : Side) : Vec := fun i => sideJ B s * s.h i

/-- `xil`, moments.cpp:638-645. -/
noncomputable def sideXi (G : ADM ℝ) (B : Bounds) (s : Side) : ℝ :=
  Real.sqrt (hsq G (sideV G B s) (sideH0 B s)) / sideJ B s

/-- `Hl`, moments.cpp:631-652. -/
noncomputable def sideH (G : ADM ℝ) (B : Bounds) (s : Side) : Vec :=
  if B.on = true ∧ sideXi G B s > B.xiMax then fun i => sideH0 B s i * (B.xiMax / sideXi G B s) else sideH0 B s

/-- `kappaH`, moments.cpp:660-661. -/
noncomputable def faceKappa (kl kr : ℝ) : ℝ := Real.sqrt (kl * kr)

/-- `HasymL = HasymR`, moments.cpp:667-668; `kmin` is `kappaH_min`. -/
noncomputable def hAsym (kmin kappa : ℝ) (dJ : Vec) : Vec := fun i => -dJ i / (3 * kappa + 3 * kmin)

/-- everything that the flux at a face depends on.
(Data type of the model of the flux computation of moments.cpp.) -/
structure Face where
  G : ADM ℝ
  sdet : ℝ
  dx : ℝ
  dir : Fin 3
  B : Bounds
  L : Side
  R : Side
  kl : ℝ
  kr : ℝ
  dJ : Vec

/-- `a`, moments.cpp:663. -/
noncomputable def Face.a (small : ℝ) (f : Face) : ℝ := Timestep.peclet small (faceKappa f.kl f.kr) f.dx

/-- the pressure tensors used for the asymptotic flux, moments.cpp:678-690. -/
noncomputable def sideFluxAsym (tp : Vec → ℝ → Vec → Tens2) (kmin : ℝ) (f : Face) (s : Side) : Vec × Tens2 :=
  let v := sideV f.G f.B s
  let J := sideJ f.B s
  let H := hAsym kmin (faceKappa f.kl f.kr) f.dJ
  fluxes false f.G v (tp v J H) J H

/-- regular fluxes, moments.cpp:693-699. -/
noncomputable def sideFluxThin (tp : Vec → ℝ → Vec → Tens2) (f : Face) (s : Side) : Vec × Tens2 :=
  let v := sideV f.G f.B s
  let J := sideJ f.B s
  let H := sideH f.G f.B s
  fluxes false f.G v (tp v J H) J H

/-- `El`, `covFl`, moments.cpp:700-701. -/
noncomputable def sideCon (tp : Vec → ℝ → Vec → Tens2) (f : Face) (s : Side) : ℝ × Vec :=
  let v := sideV f.G f.B s
  let J := sideJ f.B s
  let H := sideH f.G f.B s
  prim2con false f.G v (tp v J H) J H

/-- mixed and shift-corrected flux of one side, moments.cpp:705-722: energy part and momentum part in direction `dir`. -/
noncomputable def sideFlux (small kmin : ℝ) (tp : Vec → ℝ → Vec → Tens2) (f : Face) (s : Side) : ℝ × Vec :=
  let a := f.a small
  let ft := sideFluxThin tp f s
  let fa := sideFluxAsym tp kmin f s
  let c := sideCon tp f s
  (a * ft.1 f.dir + (1 - a) * fa.1 f.dir - f.G.beta f.dir * c.1,
   fun j => a * ft.2 f.dir j + (1 - a) * fa.2 f.dir j - f.G.beta f.dir * c.2 j)

/-- `rad_sigspeed`, moments.cpp:618-619, 710. -/
noncomputable def radSig (f : Face) : ℝ := Timestep.radSpeed f.G.alpha (f.G.beta f.dir) (f.G.gamInv f.dir f.dir)

/-- `asym_sigspeed`, moments.cpp:620-621, 711-712. -/
noncomputable def asymSig (f : Face) : ℝ :=
  max |f.G.alpha * sideV f.G f.B f.L f.dir - f.G.beta f.dir| |f.G.alpha * sideV f.G f.B f.R f.dir - f.G.beta f.dir|

/-- `sigspeed`, moments.cpp:713. -/
noncomputable def sig (small : ℝ) (f : Face) : ℝ := f.a small * radSig f + (1.0 - f.a small) * asymSig f

/-- the LLF combination, moments.cpp:725-732. -/
noncomputable def llf (sdet sigma Fl Fr Ul Ur : ℝ) : ℝ := 0.5 * sdet * (Fl + Fr + sigma * (Ul - Ur))

/-- body of `CalculateFluxesImpl` for one species: energy flux and momentum fluxes, moments.cpp:545-737.  `SMALL` is the constant of the test
at line 734. -/
noncomputable def faceFlux (small SMALL kmin : ℝ) (tp : Vec → ℝ → Vec → Tens2) (f : Face) : ℝ × Vec :=
  let l := sideFlux small kmin tp f f.L
  let r := sideFlux small kmin tp f f.R
  let cl := sideCon tp f f.L
  let cr := sideCon tp f f.R
  let s := sig small f
  if f.sdet < SMALL then (0, fun _ => 0)
  else (llf f.sdet s l.1 r.1 cl.1 cr.1, fun j => llf f.sdet s (l.2 j) (r.2 j) (cl.2 j) (cr.2 j))

end Phoebus.Moments
