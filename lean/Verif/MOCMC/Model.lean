import Verif.KdGrid.Model
import Verif.Interp.Model
import Verif.Tetrads.Model
import Verif.Closure.Model
import Mathlib.Analysis.SpecialFunctions.Complex.Arg
import Mathlib.Analysis.SpecialFunctions.Log.Basic

/-!
# Model of `/repo/src/radiation/mocmc.cpp`

Samples of one cell are numbered `0 .. nsamp-1` (the sorted per-cell order, `GetFullIndex`).  Sample fields are functions of that
number.  Opacities and the thermal distribution are arbitrary functions of the frequency.
-/
namespace Phoebus.MOCMC
open Finset KdGrid Interp GeomUtils

/-! ## Reconstruction of the angular cells -/

/-- The angular cell of a sample: `mu_lo`, `mu_hi`, `phi_lo`, `phi_hi`.
(Data type of the model of mocmc.cpp.) -/
structure Box where
  muLo : ℝ
  muHi : ℝ
  phiLo : ℝ
  phiHi : ℝ

/-- tetrad components 1..3 of a sample's wave covector, mocmc.cpp:415-420. -/
structure Dir where
  c1 : ℝ
  c2 : ℝ
  c3 : ℝ

/-- `atan2(y, x)`.
(C library function, defined for the model.) -/
noncomputable def atan2 (y x : ℝ) : ℝ := Complex.arg ⟨x, y⟩

/-- `mu`, mocmc.cpp:422. -/
noncomputable def dirMu (d : Dir) : ℝ := 1.0 - d.c1

/-- `phi`, mocmc.cpp:423. -/
noncomputable def dirPhi (d : Dir) : ℝ := atan2 d.c3 d.c2 + Real.pi

/-- the containment test, mocmc.cpp:428-431. -/
def inside (B : Box) (mu phi : ℝ) : Prop := mu > B.muLo ∧ mu < B.muHi ∧ phi > B.phiLo ∧ phi < B.phiHi

/-- Splitting the cell of sample `m` for the new sample `n`, mocmc.cpp:436-475: (cell of `n`, cell of `m`).  As in the code both
`mu_m` and `phi_m` are computed from the direction `d` of the new sample, and `phi_m` without the offset `π`. -/
noncomputable def split (d : Dir) (M : Box) : Box × Box :=
  let mu := dirMu d
  let phi := dirPhi d
  if M.muHi - M.muLo > M.phiHi - M.phiLo then
    let mu_m := 1.0 - d.c1
    let mu0 := 0.5 * (mu + mu_m)
    if mu < mu0 then ({ M with muHi := mu0 }, { M with muLo := mu0 })
    else ({ M with muLo := mu0 }, { M with muHi := mu0 })
  else
    let phi_m := atan2 d.c3 d.c2
    let phi0 := 0.5 * (phi + phi_m)
    if phi < phi0 then ({ M with phiHi := phi0 }, { M with phiLo := phi0 })
    else ({ M with phiLo := phi0 }, { M with phiHi := phi0 })

open Classical in
/-- the first earlier sample whose cell contains the direction, mocmc.cpp:425-431 and 476. -/
noncomputable def hit (f : ℕ → Box) (n : ℕ) (d : Dir) : Option ℕ :=
  (List.range n).find? fun m => decide (inside (f m) (dirMu d) (dirPhi d))

/-- processing sample `n ≥ 1`, mocmc.cpp:406-478: nothing is written if no cell contains it. -/
noncomputable def insert (f : ℕ → Box) (n : ℕ) (d : Dir) : ℕ → Box :=
  match hit f n d with
  | none => f
  | some m => Function.update (Function.update f n (split d (f m)).1) m (split d (f m)).2

/-- the initial cell, mocmc.cpp:398-404. -/
noncomputable def sphere : Box := ⟨0, 2, 0, 2 * Real.pi⟩

/-- the per-cell loop of `MOCMCReconstruction`, mocmc.cpp:396-479; `old` is the previous content of the cells. -/
noncomputable def recon (dirs : ℕ → Dir) (old : ℕ → Box) : ℕ → ℕ → Box
  | 0 => old
  | n + 1 => if n = 0 then Function.update (recon dirs old n) 0 sphere else insert (recon dirs old n) n (dirs n)

/-- solid angle of a cell, mocmc.cpp:899-902 and 644-647. -/
def area (B : Box) : ℝ := (B.muHi - B.muLo) * (B.phiHi - B.phiLo)

/-! ## Eddington tensor -/

/-- the six weights of a cell, mocmc.cpp:884-889. -/
noncomputable def wgts (B : Box) : ℕ → ℝ := quad B.muLo B.muHi B.phiLo B.phiHi fun _ => 0

/-- accumulated second moment, mocmc.cpp:890-897, `ii ≤ jj`. -/
noncomputable def second (f : ℕ → Box) (I : ℕ → ℝ) (n : ℕ) (ii jj : Fin 3) : ℝ :=
  ∑ k ∈ range n, wgts (f k) (flatten2 ii.castSucc jj.castSucc) * I k

/-- accumulated `energy`, mocmc.cpp:898-904. -/
noncomputable def energy (f : ℕ → Box) (I : ℕ → ℝ) (n : ℕ) : ℝ := ∑ k ∈ range n, area (f k) * I k

/-- `MOCMCEddington` of one cell and species, mocmc.cpp:832-838 and 884-922; `I k` is the frequency integrated intensity of
sample `k`. -/
noncomputable def eddington (f : ℕ → Box) (I : ℕ → ℝ) (n : ℕ) (i j : Fin 3) : ℝ :=
  let up (ii jj : Fin 3) : ℝ :=
    if n > 0 then second f I n ii jj / energy f I n - (if ii = jj then 1 / 3 else 0) else 0
  if i ≤ j then up i j else up j i

/-- C `std::round`: halves away from zero.
(C library function, defined for the model.) -/
noncomputable def cround (x : ℝ) : ℤ := if 0 ≤ x then ⌊x + 1 / 2⌋ else ⌈x - 1 / 2⌉

/-- the frequency grid, radiation.cpp:94 and 201-205. -/
noncomputable def nusamp (nuMin dlnu : ℝ) (n : ℕ) : ℝ := Real.exp (Real.log nuMin + ((n : ℝ) + 0.5) * dlnu)

/-- `shift`, mocmc.cpp:857-865 and 726-734; `ndu` is `-n_mu u^mu`. -/
noncomputable def shift (nu0 dlnu ndu : ℝ) : ℝ := (Real.log nu0 - Real.log (ndu * nu0)) / dlnu

/-- frequency integrated intensity of a sample, mocmc.cpp:870-882. -/
noncomputable def intensity (nb : ℕ) (nu : ℕ → ℝ) (Iinv : ℤ → ℝ) (sh : ℝ) : ℝ :=
  ∑ bin ∈ range nb, (pcWeight (nb : ℤ) (cround sh) (bin : ℤ)).2 * Iinv (pcWeight (K := ℝ) (nb : ℤ) (cround sh) (bin : ℤ)).1 * nu bin ^ 4

/-! ## Coupling to the fluid -/

/-- `Inu0`, mocmc.cpp:638-654: angle averaged intensity, `Iinv k bin` the invariant intensity of sample `k`. -/
noncomputable def inu0 (f : ℕ → Box) (n : ℕ) (Iinv : ℕ → ℕ → ℝ) (nu : ℕ → ℝ) (bin : ℕ) : ℝ :=
  ∑ k ∈ range n, Iinv k bin * nu bin ^ 3 * (area (f k) / (4 * Real.pi))

/-- trapezoidal sum of `y b * I b * nu b`, mocmc.cpp:660-695. -/
noncomputable def trap (nb : ℕ) (y I nu : ℕ → ℝ) : ℝ :=
  (∑ b ∈ range nb, y b * I b * nu b) - 0.5 * y 0 * I 0 * nu 0 - 0.5 * y (nb - 1) * I (nb - 1) * nu (nb - 1)

/-- `Itot`, mocmc.cpp:670 and 694-695. -/
noncomputable def itot (nb : ℕ) (I nu : ℕ → ℝ) : ℝ :=
  (∑ b ∈ range nb, I b * nu b) - 0.5 * (I 0 * nu 0 + I (nb - 1) * nu (nb - 1))

/-- `kappaJ`, `kappaH`, mocmc.cpp:656-697, with `kabs` the absorption and `kscat` the scattering coefficient per bin. -/
noncomputable def kappaJ (small : ℝ) (nb : ℕ) (kabs I nu : ℕ → ℝ) : ℝ := Robust.ratio small (trap nb kabs I nu) (itot nb I nu)
/-- see `kappaJ`; mocmc.cpp:697. -/
noncomputable def kappaH (small : ℝ) (nb : ℕ) (kabs kscat I nu : ℕ → ℝ) : ℝ :=
  Robust.ratio small (trap nb kscat I nu) (itot nb I nu) + kappaJ small nb kabs I nu

/-- conserved fields of a cell: radiation `E, F` per species, fluid energy, momentum and lepton number.
(Data type of the model of mocmc.cpp.) -/
structure Cell where
  E : ℕ → ℝ
  F : ℕ → Fin 3 → ℝ
  ceng : ℝ
  cmom : Fin 3 → ℝ
  cye : ℝ

/-- the conserved updates of one species, mocmc.cpp:616-628 and 699-722: `v` velocity primitive, `Pi` stored Eddington tensor, `JBB`
thermal energy density. -/
noncomputable def couple (G : Geom.ADM ℝ) (sdetgam dt : ℝ) (upd : Bool) (v : Fin 3 → ℝ) (Pi : Fin 3 → Fin 3 → ℝ) (JBB kJ kH : ℝ)
    (s : ℕ) (c : Cell) : Cell :=
  let d := Closure.linearSourceUpdate false G v (c.E s / sdetgam) (fun i => c.F s i / sdetgam) Pi JBB (G.alpha * dt * kJ) (G.alpha * dt * kH)
  { E := Function.update c.E s (c.E s + sdetgam * d.1)
    F := Function.update c.F s fun i => c.F s i + sdetgam * d.2 i
    ceng := if upd then c.ceng - sdetgam * d.1 else c.ceng
    cmom := if upd then fun i => c.cmom i - sdetgam * d.2 i else c.cmom
    cye := if upd then c.cye - sdetgam * 0.0 else c.cye }

/-- `jinvs`, mocmc.cpp:741-750. -/
noncomputable def jinvs (I0 kscat nu : ℕ → ℝ) (bin : ℕ) : ℝ := I0 bin / (nu bin * nu bin * nu bin) * (nu bin * kscat bin)

/-- update of one sample in one bin, mocmc.cpp:752-783: `B` thermal distribution, `sh` the shift of line 734.  As in the code
`alphainv_a` is computed from the scattering coefficient; the absorption coefficient `_kabs` does not enter. -/
noncomputable def sampleUpdate (nb : ℕ) (dt u0 sh : ℝ) (B _kabs kscat I0 nu : ℕ → ℝ) (I : ℝ) (bin : ℕ) : ℝ :=
  let nuf := nu bin
  let ds := dt / u0 / nuf
  let aa := nuf * kscat bin
  let as := nuf * kscat bin
  let ja := B bin / (nuf * nuf * nuf) * aa
  let w : ℤ × ℝ := pcWeight (nb : ℤ) (cround (-sh)) (bin : ℤ)
  let js := w.2 * jinvs I0 kscat nu w.1.toNat
  (I + ds * (ja + js)) / (1 + ds * (aa + as))

/-! ## Samples: initialisation, boundaries, counting -/

/-- the running index of the loop over zones, mocmc.cpp:137-146, zones in loop order with `N z` samples. -/
def startIndex (N : ℕ → ℕ) : ℕ → ℕ
  | 0 => 0
  | z + 1 => startIndex N z + N z

/-- initial coordinate of a sample in zone `i`, mocmc.cpp:190-192. -/
def initPos (minx dx : ℝ) (is i : ℤ) (u : ℝ) : ℝ := minx + ((i : ℝ) - (is : ℝ) + u) * dx

/-- tetrad components of a new sample's wave covector, mocmc.cpp:196-200, from two uniform random numbers. -/
noncomputable def initTetrad (u1 u2 : ℝ) : Fin 4 → ℝ :=
  let theta := Real.arccos (2 * u1 - 1)
  let phi := 2 * Real.pi * u2
  ![-1, Real.cos theta, Real.cos phi * Real.sin theta, Real.sin phi * Real.sin theta]

/-- coordinate components, mocmc.cpp:178-184, 202-203. -/
noncomputable def initNcov (eps : ℝ) (g : Fin 4 → Fin 4 → ℝ) (ucon : Fin 4 → ℝ) (u1 u2 : ℝ) : Fin 4 → ℝ :=
  Tetrads.tetradToCoordCov (Tetrads.ecov g (Tetrads.econ eps g ucon Tetrads.defaultTrial)) (initTetrad u1 u2)

/-- initial invariant intensity, mocmc.cpp:207-222: `Therm T nu` the thermal distribution, `T` the fluid temperature.  The radiation
temperature computed from `J` in line 213 is not used. -/
noncomputable def initI (SMALL : ℝ) (Therm : ℝ → ℝ → ℝ) (T nus ndu : ℝ) : ℝ :=
  max SMALL (Therm T (nus * ndu) / (nus * ndu) ^ 3)

/-- a sample at the boundary: coordinate, covariant x-component, intensities per bin.
(Data type of the model of mocmc.cpp.) -/
structure Sample where
  x : ℝ
  n1 : ℝ
  I : ℕ → ℝ

/-- `MOCMCSampleBoundaries` for one sample, mocmc.cpp:301-342; `B` thermal distribution at the boundary temperature. -/
noncomputable def boundary (SMALL lo hi : ℝ) (B nu : ℕ → ℝ) (p : Sample) : Sample :=
  let p1 : Sample := if p.x < lo then ⟨lo + (lo - p.x), -p.n1, fun b => max SMALL (B b) / nu b ^ 3⟩ else p
  if p1.x > hi then ⟨hi - (p1.x - hi), -p1.n1, fun _ => SMALL⟩ else p1

/-- `num_total` handling: `MOCMCReconstruction` of a partition overwrites the parameter with the partition's count,
mocmc.cpp:357-364. -/
def reconCount (counts : List ℕ) (_param : ℕ) : ℕ := counts.foldl (· + ·) 0

/-- `MOCMCUpdateParticleCount`, mocmc.cpp:930-936: state (parameter, `resolution[0]`). -/
def updateCount (s : ℕ × ℕ) : ℕ × ℕ := (0, s.2 + s.1)

/-- the reported count of a step: every partition (a list of per-block counts) is reconstructed in some order, then the update
task runs `m` times (once per task list), phoebus_driver.cpp:388 and 679-712. -/
def reported (parts : List (List ℕ)) (m : ℕ) : ℕ :=
  (updateCount^[m] (parts.foldl (fun p c => reconCount c p) 0, 0)).2

end Phoebus.MOCMC
