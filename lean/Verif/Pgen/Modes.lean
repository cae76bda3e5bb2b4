import Verif.Pgen.ChartProps

/-!
# Model of the wave data of `/repo/src/pgen/linear_modes.cpp`
-/
namespace Phoebus.Pgen
open Geom Finset Real

/-- frequency (`omega.imag()`) and amplitudes of a mode, linear_modes.cpp:88-96. -/
structure Mode where
  omega : ℝ
  drho : ℝ
  dug : ℝ
  du1 : ℝ
  du2 : ℝ
  du3 : ℝ
  dB1 : ℝ
  dB2 : ℝ
  dB3 : ℝ

/-- hydro, entropy: linear_modes.cpp:99-104. -/
noncomputable def entropyMode : Mode := ⟨2 * π / 10, 1, 0, 0, 0, 0, 0, 0, 0⟩

/-- hydro, sound, one dimension: linear_modes.cpp:106-110. -/
noncomputable def soundMode1 : Mode := ⟨2.7422068833892093, 0.5804294924639215, 0.7739059899518946, -0.2533201985524494, 0, 0, 0, 0, 0⟩

/-- hydro, sound, two dimensions: linear_modes.cpp:111-116. -/
noncomputable def soundMode2 : Mode :=
  ⟨3.8780661653218766, 0.5804294924639213, 0.7739059899518947, 0.1791244302079596, 0.1791244302079596, 0, 0, 0, 0⟩

/-- mhd, slow: linear_modes.cpp:126-134. -/
noncomputable def slowMode : Mode :=
  ⟨2.41024185339, 0.558104461559, 0.744139282078, -0.277124827421, 0.063034892770, 0, -0.164323721928, 0.164323721928, 0⟩

/-- mhd, alfven: linear_modes.cpp:135-138. -/
noncomputable def alfvenMode : Mode := ⟨3.44144232573, 0, 0, 0, 0, 0.480384461415, 0, 0, 0.877058019307⟩

/-- mhd, fast: linear_modes.cpp:139-146. -/
noncomputable def fastMode : Mode :=
  ⟨5.53726217331, 0.476395427447, 0.635193903263, -0.102965815319, -0.316873207561, 0, 0.359559114174, -0.359559114174, 0⟩

/-- wavenumber `kk`, linear_modes.cpp:84-86 (`k1 = k2 = kk`). -/
noncomputable def kk : ℝ := 2 * π

/-- final time before the lapse correction, linear_modes.cpp:157. -/
noncomputable def finalTime (m : Mode) : ℝ := 2 * π / m.omega

/-- inertial primitives with perturbation factor `c` (the code's `mode`), linear_modes.cpp:211-248: `rho0 = ug0 = 1`,
background at rest, field `(B10, 0, 0)`, `Pg = (gam - 1) ug`. -/
noncomputable def wavePrim (gam B10 : ℝ) (m : Mode) (c : ℝ) : Rel.Prim where
  rho := 1 + m.drho * c
  u := 1 + m.dug * c
  P := (gam - 1) * (1 + m.dug * c)
  v := ![0 + m.du1 * c, 0 + m.du2 * c, 0 + m.du3 * c]
  B := ![B10 + m.dB1 * c, 0 + m.dB2 * c, 0 + m.dB3 * c]

/-- `amp * cos(k1 * x + k2 * y)`, linear_modes.cpp:209. -/
noncomputable def waveFactor (amp x y : ℝ) : ℝ := amp * cos (kk * x + kk * y)

/-- rotor.cpp:73-83: the final time is divided by the lapse each time the generator runs, which is once per mesh block. -/
noncomputable def rotorTlim (al tlim : ℝ) : ℕ → ℝ
  | 0 => tlim
  | n + 1 => rotorTlim al tlim n / al

/-- linear_modes.cpp:157-191: the final time is recomputed from the mode on every block. -/
noncomputable def modesTlim (m : Mode) (al tlim : ℝ) : ℕ → ℝ
  | 0 => tlim
  | _ + 1 => finalTime m / al

end Phoebus.Pgen
