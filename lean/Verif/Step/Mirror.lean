import Verif.Step.Shift
import Verif.Recon.Odd
import Verif.Riemann.Mirror

/-!
# C134: the run of the mirrored data is the mirrored run
-/
namespace Phoebus.Step
open FluxSweep
variable {K : Type} [Field K] [LinearOrder K] {N : ℕ}

/-! ### Specification -/

/-- Data type: a mirror plane normal to direction `a`, halfway between cells `0` and `s - 1`; the variables that change sign. -/
structure Plane (K : Type) (N : ℕ) where
  a : Fin 3
  s : ℤ
  eps : Fin N → K
  eta : ℕ → K

/-- mirror image of a cell. -/
def Plane.cell (Z : Plane K N) (p : Pos) : Pos := fun e => if e = Z.a then Z.s - 1 - p e else p e

/-- mirror image of a face of direction `d`. -/
def Plane.face (Z : Plane K N) (d : Fin 3) (p : Pos) : Pos := fun e => if e = Z.a then (if d = Z.a then Z.s else Z.s - 1) - p e else p e

/-- mirror image of the contents of a cell. -/
def Plane.val (Z : Plane K N) (x : Cell K N) : Cell K N := (fun m => Z.eta m * x.1 m, fun n => Z.eps n * x.2 n)

/-- mirror image of the data. -/
def Plane.fields (Z : Plane K N) (X : Fields K N) : Fields K N := fun p => Z.val (X (Z.cell p))

/-- mirror image of the state. -/
def Plane.glob (Z : Plane K N) (Y : Glob K N) : Glob K N := (Z.fields Y.1, fun d p => Y.2 d (Z.face d p))

/-- mirror image of the states around a face of direction `d`. -/
def Plane.around (Z : Plane K N) (d : Fin 3) (st : Pos → Fin N → K) : Pos → Fin N → K := fun r n =>
  Z.eps n * st (fun e => if e = Z.a then (if d = Z.a then -1 else 0) - r e else r e) n

/-- geometry, equation of state, floors, sources and boundary conditions have the mirror symmetry: at faces normal to the mirror direction the two
states change place and the flux is reversed.  Of the magnetic field either the normal or the two tangential components change sign. -/
structure Symmetric (Z : Plane K N) (nd : ℕ) (P : Phys K N) : Prop where
  eps : ∀ n, Z.eps n = 1 ∨ Z.eps n = -1
  act : Z.a.val < nd
  S_t : ∀ d, d ≠ Z.a → ∀ p l r m, P.S d p (fun n => Z.eps n * l n) (fun n => Z.eps n * r n) m = Z.eta m * P.S d (Z.face d p) l r m
  S_n : ∀ p l r m, P.S Z.a p (fun n => Z.eps n * r n) (fun n => Z.eps n * l n) m = -(Z.eta m * P.S Z.a (Z.face Z.a p) l r m)
  sig_t : ∀ d, d ≠ Z.a → ∀ p l r, P.sig d p (fun n => Z.eps n * l n) (fun n => Z.eps n * r n) = P.sig d (Z.face d p) l r
  sig_n : ∀ p l r, P.sig Z.a p (fun n => Z.eps n * r n) (fun n => Z.eps n * l n) = P.sig Z.a (Z.face Z.a p) l r
  fix_t : ∀ d, d ≠ Z.a → ∀ p F m, P.fix d p (fun m => Z.eta m * F m) m = Z.eta m * P.fix d (Z.face d p) F m
  fix_n : ∀ p F m, P.fix Z.a p (fun m => -(Z.eta m * F m)) m = -(Z.eta m * P.fix Z.a (Z.face Z.a p) F m)
  src : ∀ p v m, P.src p (fun n => Z.eps n * v n) m = Z.eta m * P.src (Z.cell p) v m
  inv : ∀ p u, P.inv p (fun m => Z.eta m * u m) = Z.val (P.inv (Z.cell p) u)
  mid : ∀ p x, P.mid p (Z.val x) = Z.val (P.mid (Z.cell p) x)
  rad : ∀ d p st m, P.rad d p (Z.around d st) m = (if d = Z.a then -1 else 1) * Z.eta m * P.rad d (Z.face d p) st m
  bnd : ∀ p x, P.bnd p (Z.val x) = Z.val (P.bnd (Z.cell p) x)
  field : ∀ b0, P.mhd = some b0 → ∀ c : Fin 3, c ≠ Z.a → Z.eta (b0 + c.val) = -Z.eta (b0 + Z.a.val)

/-- the local time step does not distinguish the two sides. -/
def SymmetricEst (Z : Plane K N) (est : Pos → (Fin N → K) → (Fin 3 → K × K) → K) : Prop :=
  ∀ p v F, est p (fun n => Z.eps n * v n) (fun d => if d = Z.a then (F d).swap else F d) = est (Z.cell p) v F

/-! ### Face states -/

section recon
variable [IsStrictOrderedRing K]

theorem kernel_odd (ew em : K) (rt : Method) (q : ℤ → K) : kernel ew em rt (fun m => -q m) = -kernel ew em rt q := by
  obtain ⟨h2, h3, -⟩ := Recon.recon_odd ew em (q (-1)) (q 0) (q 1) (q 1) (q 1)
  obtain ⟨-, h4, h5⟩ := Recon.recon_odd ew em (q (-2)) (q (-1)) (q 0) (q 1) (q 2)
  cases rt <;> simp only [kernel]
  · rfl
  · exact h2
  · exact h5
  · exact h4

theorem kernel_flip (ew em : K) (rt : Method) (q : ℤ → K) : kernel ew em rt (fun m => q (-m)) = (kernel ew em rt q).swap := by
  obtain ⟨h2, -, -⟩ := Recon.recon_mirror ew em (q (-1)) (q 0) (q 1) (q 1) (q 1)
  obtain ⟨-, h4, h5⟩ := Recon.recon_mirror ew em (q (-2)) (q (-1)) (q 0) (q 1) (q 2)
  cases rt <;> simp only [kernel, neg_neg, neg_zero]
  · rfl
  · exact h2
  · exact h5
  · exact h4

theorem kernel_sign (ew em : K) (rt : Method) (t : K) (ht : t = 1 ∨ t = -1) (q : ℤ → K) :
    kernel ew em rt (fun m => t * q m) = (t * (kernel ew em rt q).1, t * (kernel ew em rt q).2) := by
  rcases ht with rfl | rfl
  · simp only [one_mul]
  · simp only [neg_one_mul, kernel_odd]; rfl

theorem states_t (Z : Plane K N) (he : ∀ n, Z.eps n = 1 ∨ Z.eps n = -1) (ew em : K) (rt : Method) (V : Fin N → Pos → K) (d : Fin 3) (hd : d ≠ Z.a) (p : Pos) :
    stateL (kernel ew em rt) (fun n c => Z.eps n * V n (Z.cell c)) d p = (fun n => Z.eps n * stateL (kernel ew em rt) V d (Z.face d p) n) ∧
    stateR (kernel ew em rt) (fun n c => Z.eps n * V n (Z.cell c)) d p = fun n => Z.eps n * stateR (kernel ew em rt) V d (Z.face d p) n := by
  have hp : ∀ k : ℤ, (Z.cell fun e => p e + k * unit d e) = fun e => Z.face d p e + k * unit d e := by
    intro k; funext e
    unfold Plane.cell Plane.face
    by_cases ha : e = Z.a
    · subst ha
      simp only [if_true, hd, if_false, unit, Ne.symm hd, mul_zero, add_zero]
    · simp only [ha, if_false]
  constructor
  · funext n
    unfold stateL
    rw [kernel_sign ew em rt _ (he n)]
    simp only [hp]
  · funext n
    unfold stateR
    rw [kernel_sign ew em rt _ (he n)]
    simp only [hp]

theorem states_n (Z : Plane K N) (he : ∀ n, Z.eps n = 1 ∨ Z.eps n = -1) (ew em : K) (rt : Method) (V : Fin N → Pos → K) (p : Pos) :
    stateL (kernel ew em rt) (fun n c => Z.eps n * V n (Z.cell c)) Z.a p = (fun n => Z.eps n * stateR (kernel ew em rt) V Z.a (Z.face Z.a p) n) ∧
    stateR (kernel ew em rt) (fun n c => Z.eps n * V n (Z.cell c)) Z.a p = fun n => Z.eps n * stateL (kernel ew em rt) V Z.a (Z.face Z.a p) n := by
  have hp : ∀ k : ℤ, (Z.cell fun e => p e + k * unit Z.a e) = fun e => Z.face Z.a p e + (-k - 1) * unit Z.a e := by
    intro k; funext e
    unfold Plane.cell Plane.face unit
    by_cases ha : e = Z.a
    · subst ha; simp only [if_true]; ring
    · simp only [ha, if_false]; ring
  constructor
  · funext n
    unfold stateL stateR
    rw [kernel_sign ew em rt _ (he n)]
    simp only [hp]
    have := kernel_flip ew em rt fun m => V n fun e => Z.face Z.a p e + m * unit Z.a e
    have e1 : (fun m : ℤ => V n fun e => Z.face Z.a p e + (-(m - 1) - 1) * unit Z.a e) = fun m => V n fun e => Z.face Z.a p e + -m * unit Z.a e := by
      funext m; congr 1; funext e; ring
    rw [e1, this]
    rfl
  · funext n
    unfold stateL stateR
    rw [kernel_sign ew em rt _ (he n)]
    simp only [hp]
    have := kernel_flip ew em rt fun m => V n fun e => Z.face Z.a p e + (m - 1) * unit Z.a e
    rw [this]
    rfl

/-! ### Fluxes -/

/-- sign of the normal of a face. -/
def Plane.nrm (Z : Plane K N) (d : Fin 3) : K := if d = Z.a then -1 else 1

theorem refFlux_mirror (Z : Plane K N) (nd : ℕ) (P : Phys K N) (hP : Symmetric Z nd P) (X : Fields K N) (d : Fin 3) (p : Pos) (m : ℕ) :
    refFlux P (Z.fields X) d p m = Z.nrm d * Z.eta m * refFlux P X d (Z.face d p) m := by
  unfold refFlux Plane.fields Plane.val Plane.nrm
  simp only
  by_cases hd : d = Z.a
  · subst hd
    obtain ⟨h1, h2⟩ := states_n Z hP.eps P.ew P.em P.rt (fun n c => (X c).2 n) p
    rw [h1, h2, hP.S_n, if_pos rfl]; ring
  · obtain ⟨h1, h2⟩ := states_t Z hP.eps P.ew P.em P.rt (fun n c => (X c).2 n) d hd p
    rw [h1, h2, hP.S_t d hd, if_neg hd]; ring

theorem refSpeed_mirror (Z : Plane K N) (nd : ℕ) (P : Phys K N) (hP : Symmetric Z nd P) (X : Fields K N) (d : Fin 3) (p : Pos) :
    refSpeed P (Z.fields X) d p = refSpeed P X d (Z.face d p) := by
  unfold refSpeed Plane.fields Plane.val
  simp only
  by_cases hd : d = Z.a
  · subst hd
    obtain ⟨h1, h2⟩ := states_n Z hP.eps P.ew P.em P.rt (fun n c => (X c).2 n) p
    rw [h1, h2, hP.sig_n]
  · obtain ⟨h1, h2⟩ := states_t Z hP.eps P.ew P.em P.rt (fun n c => (X c).2 n) d hd p
    rw [h1, h2, hP.sig_t d hd]

end recon

/-- mirror image of the edge shared by faces of directions `d` and `c`. -/
def Plane.edge (Z : Plane K N) (d c : Fin 3) (p : Pos) : Pos := fun e => if e = Z.a then (if d = Z.a ∨ c = Z.a then Z.s else Z.s - 1) - p e else p e

theorem emf_mirror (Z : Plane K N) (b0 : ℕ) (hf : ∀ c : Fin 3, c ≠ Z.a → Z.eta (b0 + c.val) = -Z.eta (b0 + Z.a.val)) (Φ Φ' : Fin 3 → Pos → ℕ → K)
    (h : ∀ d p m, Φ' d p m = Z.nrm d * Z.eta m * Φ d (Z.face d p) m) (d c : Fin 3) (hdc : d ≠ c) (p : Pos) :
    emfAt Φ' b0 d c p = Z.nrm d * Z.eta (b0 + c.val) * emfAt Φ b0 d c (Z.edge d c p) := by
  unfold emfAt
  simp only [h]
  by_cases hd : d = Z.a
  · subst hd
    have hc : c ≠ Z.a := Ne.symm hdc
    have e1 : Z.face Z.a p = Z.edge Z.a c p := by funext e; simp [Plane.face, Plane.edge]
    have e2 : (Z.face Z.a fun e => p e - unit c e) = fun e => Z.edge Z.a c p e - unit c e := by
      funext e; by_cases he : e = Z.a
      · subst he; simp [Plane.face, Plane.edge, unit, hdc]
      · simp [Plane.face, Plane.edge, he]
    have e3 : Z.face c p = fun e => Z.edge Z.a c p e - unit Z.a e := by
      funext e; by_cases he : e = Z.a
      · subst he; simp [Plane.face, Plane.edge, unit, hc]; ring
      · simp [Plane.face, Plane.edge, unit, he]
    have e4 : (Z.face c fun e => p e - unit Z.a e) = Z.edge Z.a c p := by
      funext e; by_cases he : e = Z.a
      · subst he; simp [Plane.face, Plane.edge, unit, hc]
      · simp [Plane.face, Plane.edge, unit, he]
    rw [e1, e2, e3, e4, hf c hc]
    simp only [Plane.nrm, hc, if_true, if_false]
    ring
  · by_cases hc : c = Z.a
    · subst hc
      have e1 : Z.face d p = fun e => Z.edge d Z.a p e - unit Z.a e := by
        funext e; by_cases he : e = Z.a
        · subst he; simp [Plane.face, Plane.edge, unit, hd]; ring
        · simp [Plane.face, Plane.edge, unit, he]
      have e2 : (Z.face d fun e => p e - unit Z.a e) = Z.edge d Z.a p := by
        funext e; by_cases he : e = Z.a
        · subst he; simp [Plane.face, Plane.edge, unit, hd]
        · simp [Plane.face, Plane.edge, unit, he]
      have e3 : Z.face Z.a p = Z.edge d Z.a p := by funext e; simp [Plane.face, Plane.edge]
      have e4 : (Z.face Z.a fun e => p e - unit d e) = fun e => Z.edge d Z.a p e - unit d e := by
        funext e; by_cases he : e = Z.a
        · subst he; simp [Plane.face, Plane.edge, unit, Ne.symm hd]
        · simp [Plane.face, Plane.edge, he]
      rw [e1, e2, e3, e4, hf d hd]
      simp only [Plane.nrm, hd, if_true, if_false]
      ring
    · have e1 : ∀ x : Fin 3, x ≠ Z.a → Z.face x p = Z.edge d c p := by intro x hx; funext e; simp [Plane.face, Plane.edge, hx, hd, hc]
      have e2 : ∀ x y : Fin 3, x ≠ Z.a → y ≠ Z.a → (Z.face x fun e => p e - unit y e) = fun e => Z.edge d c p e - unit y e := by
        intro x y hx hy
        funext e; by_cases he : e = Z.a
        · subst he; simp [Plane.face, Plane.edge, unit, hx, Ne.symm hy, hd, hc]
        · simp [Plane.face, Plane.edge, he]
      rw [e1 d hd, e1 c hc, e2 d c hd hc, e2 c d hc hd, hf c hc, hf d hd]
      simp only [Plane.nrm, hd, hc, if_false]
      ring

theorem refCT_mirror (Z : Plane K N) (nd : ℕ) (mhd : Option ℕ)
    (hf : ∀ b0, mhd = some b0 → ∀ c : Fin 3, c ≠ Z.a → Z.eta (b0 + c.val) = -Z.eta (b0 + Z.a.val)) (Φ Φ' : Fin 3 → Pos → ℕ → K)
    (h : ∀ d p m, Φ' d p m = Z.nrm d * Z.eta m * Φ d (Z.face d p) m) (d : Fin 3) (p : Pos) (m : ℕ) :
    refCT nd mhd Φ' d p m = Z.nrm d * Z.eta m * refCT nd mhd Φ d (Z.face d p) m := by
  unfold refCT
  cases mhd with
  | none => simp only [h]
  | some b0 =>
    simp only
    split_ifs with h1 h2
    · ring
    · obtain ⟨c, hc⟩ : ∃ c : Fin 3, c = ⟨m - b0, by omega⟩ := ⟨_, rfl⟩
      rw [← hc] at h2 ⊢
      have hm : m = b0 + c.val := by rw [hc]; simp only; omega
      rw [emf_mirror Z b0 (hf b0 rfl) Φ Φ' h d c h2, emf_mirror Z b0 (hf b0 rfl) Φ Φ' h d c h2, hm]
      by_cases hca : c = Z.a
      · subst hca
        have e1 : Z.edge d Z.a p = fun e => Z.face d p e + unit Z.a e := by
          funext e; by_cases he : e = Z.a
          · subst he; simp [Plane.face, Plane.edge, unit, h2]; ring
          · simp [Plane.face, Plane.edge, unit, he]
        have e2 : (Z.edge d Z.a fun e => p e + unit Z.a e) = Z.face d p := by
          funext e; by_cases he : e = Z.a
          · subst he; simp [Plane.face, Plane.edge, unit, h2]; ring
          · simp [Plane.face, Plane.edge, unit, he]
        rw [e1, e2]; ring
      · have e1 : Z.edge d c p = Z.face d p := by funext e; simp [Plane.face, Plane.edge, hca]
        have e2 : (Z.edge d c fun e => p e + unit c e) = fun e => Z.face d p e + unit c e := by
          funext e; by_cases he : e = Z.a
          · subst he; simp [Plane.face, Plane.edge, unit, hca, Ne.symm hca]
          · simp [Plane.face, Plane.edge, he]
        rw [e1, e2]; ring
    · rw [h]

/-- faces of the mirrored cell. -/
theorem face_cell (Z : Plane K N) (d : Fin 3) (p : Pos) :
    (d ≠ Z.a → Z.face d p = Z.cell p ∧ (Z.face d fun e => p e + unit d e) = fun e => Z.cell p e + unit d e) ∧
    (d = Z.a → (Z.face d p = fun e => Z.cell p e + unit d e) ∧ (Z.face d fun e => p e + unit d e) = Z.cell p) := by
  constructor
  · intro hd
    constructor
    · funext e; simp [Plane.face, Plane.cell, hd]
    · funext e; by_cases he : e = Z.a
      · subst he; simp [Plane.face, Plane.cell, unit, hd, Ne.symm hd]
      · simp [Plane.face, Plane.cell, he]
  · rintro rfl
    constructor
    · funext e; by_cases he : e = Z.a
      · subst he; simp [Plane.face, Plane.cell, unit]; ring
      · simp [Plane.face, Plane.cell, unit, he]
    · funext e; by_cases he : e = Z.a
      · subst he; simp [Plane.face, Plane.cell, unit]; ring
      · simp [Plane.face, Plane.cell, unit, he]

omit [LinearOrder K] in
/-- the states around a face of the mirrored data. -/
theorem near_mirror (Z : Plane K N) (nd : ℕ) (ha : Z.a.val < nd) (rt : Method) (X : Fields K N) (d : Fin 3) (p : Pos) :
    near nd rt d p (Z.fields X) = Z.around d (near nd rt d (Z.face d p) X) := by
  funext r n
  unfold Plane.around near
  have hs : Stencil nd rt d r ↔ Stencil nd rt d fun e => if e = Z.a then (if d = Z.a then -1 else 0) - r e else r e := by
    unfold Stencil
    refine forall_congr' fun e => ?_
    by_cases he : e = Z.a
    · subst he
      simp only [if_true, ha]
      by_cases hd : d = Z.a
      · subst hd; simp only [if_true]; constructor <;> (intro h; constructor <;> omega)
      · have hd' : Z.a ≠ d := fun h => hd h.symm
        simp only [hd, hd', if_false]; constructor <;> (intro h; constructor <;> omega)
    · simp only [he, if_false]
  by_cases h : Stencil nd rt d r
  · rw [if_pos h, if_pos (hs.1 h)]
    show Z.eps n * (X (Z.cell fun e => p e + r e)).2 n = _
    have : (Z.cell fun e => p e + r e) = fun e => Z.face d p e + if e = Z.a then (if d = Z.a then -1 else 0) - r e else r e := by
      funext e
      unfold Plane.cell Plane.face
      by_cases he : e = Z.a
      · subst he
        by_cases hd : d = Z.a
        · simp only [hd, if_true]; ring
        · simp only [hd, if_true, if_false]; ring
      · simp only [he, if_false]
    rw [this]
  · rw [if_neg h, if_neg (fun h' => h (hs.2 h')), mul_zero]

/-! ### Stages, steps, runs -/

variable [IsStrictOrderedRing K]

theorem refUpdate_mirror (Z : Plane K N) (nd : ℕ) (P : Phys K N) (hP : Symmetric Z nd P) (dt : K) (base cur : Fields K N) :
    refUpdate nd P dt (Z.fields base) (Z.fields cur) = Z.fields (refUpdate nd P dt base cur) := by
  have hall : ∀ d p m, refAll nd P (Z.fields cur) d p m = Z.nrm d * Z.eta m * refAll nd P cur d (Z.face d p) m := by
    intro d p m
    have hct : refCT nd P.mhd (refFlux P (Z.fields cur)) d p = fun m => Z.nrm d * Z.eta m * refCT nd P.mhd (refFlux P cur) d (Z.face d p) m := by
      funext m
      exact refCT_mirror Z nd P.mhd hP.field (refFlux P cur) _ (fun d p m => refFlux_mirror Z nd P hP cur d p m) d p m
    have hrd : ∀ m, P.rad d p (near nd P.rt d p (Z.fields cur)) m = Z.nrm d * Z.eta m * P.rad d (Z.face d p) (near nd P.rt d (Z.face d p) cur) m := by
      intro m
      rw [near_mirror Z nd hP.act, hP.rad]
      rfl
    unfold refAll
    rw [hct]
    simp only [hrd, ← mul_add]
    by_cases hd : d = Z.a
    · subst hd
      simp only [Plane.nrm, if_true, neg_mul, one_mul]
      exact hP.fix_n p _ m
    · simp only [Plane.nrm, hd, if_false, one_mul]
      exact hP.fix_t d hd p _ m
  funext p
  have hdiv : ∀ m, refDiv nd P.dx (refAll nd P (Z.fields cur)) m p = Z.eta m * refDiv nd P.dx (refAll nd P cur) m (Z.cell p) := by
    intro m
    unfold refDiv
    rw [mul_neg, Finset.mul_sum]
    congr 1
    apply Finset.sum_congr rfl
    intro d _
    by_cases hn : d.val < nd
    · rw [if_pos hn, if_pos hn, hall, hall]
      by_cases hd : d = Z.a
      · obtain ⟨h1, h2⟩ := (face_cell Z d p).2 hd
        rw [h1, h2]
        simp only [Plane.nrm, hd, if_true]; ring
      · obtain ⟨h1, h2⟩ := (face_cell Z d p).1 hd
        rw [h1, h2]
        simp only [Plane.nrm, hd, if_false]; ring
    · rw [if_neg hn, if_neg hn, mul_zero]
  show P.mid p (P.inv p _) = Z.val (P.mid (Z.cell p) (P.inv (Z.cell p) _))
  rw [← hP.mid, ← hP.inv]
  congr 2; funext m
  rw [hdiv]
  have hs : P.src p (Z.fields cur p).2 m = Z.eta m * P.src (Z.cell p) (cur (Z.cell p)).2 m := hP.src p _ m
  have h1 : (Z.fields cur p).1 m = Z.eta m * (cur (Z.cell p)).1 m := rfl
  have h2 : (Z.fields base p).1 m = Z.eta m * (base (Z.cell p)).1 m := rfl
  rw [hs, h1, h2]
  ring

omit [LinearOrder K] [IsStrictOrderedRing K] in
theorem cell_cell (Z : Plane K N) (p : Pos) : Z.cell (Z.cell p) = p := by
  funext e; unfold Plane.cell
  by_cases he : e = Z.a
  · simp only [he, if_true]; ring
  · simp only [he, if_false]

theorem refStage_mirror (Z : Plane K N) (nd : ℕ) (P : Phys K N) (hP : Symmetric Z nd P) (wrap : Pos → Pos) (hw : ∀ p, wrap (Z.cell p) = Z.cell (wrap p))
    (dt : K) (base cur : Glob K N) : refStage nd wrap dt (Z.glob base).1 (Z.glob cur) P = Z.glob (refStage nd wrap dt base.1 cur P) := by
  unfold refStage Plane.glob
  refine Prod.ext ?_ ?_
  · funext p
    show refFields nd wrap dt (Z.fields base.1) (Z.fields cur.1) P p = Z.val (refFields nd wrap dt base.1 cur.1 P (Z.cell p))
    unfold refFields
    simp only [refUpdate_mirror Z nd P hP]
    have hiff : wrap p = p ↔ wrap (Z.cell p) = Z.cell p := by
      rw [hw]
      constructor
      · intro h; rw [h]
      · intro h
        have := congrArg Z.cell h
        rwa [cell_cell, cell_cell] at this
    have e1 : ∀ x : Cell K N, P.inv p (Z.val x).1 = Z.val (P.inv (Z.cell p) x.1) := fun x => hP.inv p x.1
    by_cases hp : wrap p = p
    · rw [if_pos hp, if_pos (hiff.1 hp), ← e1]; rfl
    · rw [if_neg hp, if_neg (fun h => hp (hiff.2 h)), ← e1, ← hP.bnd, hw]; rfl
  · funext d p
    exact refSpeed_mirror Z nd P hP cur.1 d p

theorem refStep_mirror (Z : Plane K N) (nd : ℕ) (sts : List (Phys K N)) (hP : ∀ P ∈ sts, Symmetric Z nd P) (wrap : Pos → Pos)
    (hw : ∀ p, wrap (Z.cell p) = Z.cell (wrap p)) (dt : K) (X : Glob K N) : refStep nd wrap dt sts (Z.glob X) = Z.glob (refStep nd wrap dt sts X) := by
  unfold refStep
  have key : ∀ (l : List (Phys K N)) (cur : Glob K N), (∀ P ∈ l, Symmetric Z nd P) →
      l.foldl (refStage nd wrap dt (Z.glob X).1) (Z.glob cur) = Z.glob (l.foldl (refStage nd wrap dt X.1) cur) := by
    intro l
    induction l with
    | nil => intro cur _; rfl
    | cons P l ih =>
      intro cur hl
      rw [List.foldl_cons, List.foldl_cons, refStage_mirror Z nd P (hl P (by simp)) wrap hw]
      exact ih _ fun P' h' => hl P' (List.mem_cons_of_mem _ h')
  exact key sts X hP

omit [IsStrictOrderedRing K] in
theorem estimates_mirror (Z : Plane K N) (nd : ℕ) (Dom : Pos → Prop) (hD : ∀ p, Dom (Z.cell p) ↔ Dom p) (ha : Z.a.val < nd)
    (est : Pos → (Fin N → K) → (Fin 3 → K × K) → K)
    (he : SymmetricEst Z est) (X : Glob K N) : refEstimates nd Dom est (Z.glob X) = refEstimates nd Dom est X := by
  have key : ∀ p, (est p ((Z.glob X).1 p).2 fun d => if d.val < nd then ((Z.glob X).2 d p, (Z.glob X).2 d fun e => p e + unit d e) else (0, 0)) =
      est (Z.cell p) (X.1 (Z.cell p)).2 fun d => if d.val < nd then (X.2 d (Z.cell p), X.2 d fun e => Z.cell p e + unit d e) else (0, 0) := by
    intro p
    rw [← he]
    show est p (fun n => Z.eps n * (X.1 (Z.cell p)).2 n) _ = _
    congr 1; funext d
    by_cases hd : d = Z.a
    · obtain ⟨h1, h2⟩ := (face_cell Z d p).2 hd
      rw [if_pos hd, if_pos (by rw [hd]; exact ha), if_pos (by rw [hd]; exact ha)]
      simp only [Plane.glob, h1, h2, Prod.swap]
    · obtain ⟨h1, h2⟩ := (face_cell Z d p).1 hd
      rw [if_neg hd]
      simp only [Plane.glob, h1, h2]
  ext x
  constructor
  · rintro ⟨p, hp, rfl⟩
    exact ⟨Z.cell p, (hD p).2 hp, key p⟩
  · rintro ⟨p, hp, rfl⟩
    refine ⟨Z.cell p, (hD p).2 hp, ?_⟩
    rw [key, cell_cell]

/-- **C134 (without blocks)**. -/
theorem refRun_mirror (Z : Plane K N) (nd : ℕ) (ha : Z.a.val < nd) (Dom : Pos → Prop) (hD : ∀ p, Dom (Z.cell p) ↔ Dom p) (wrap : Pos → Pos)
    (hw : ∀ p, wrap (Z.cell p) = Z.cell (wrap p)) (est : Pos → (Fin N → K) → (Fin 3 → K × K) → K) (he : SymmetricEst Z est) (ctrl : ℕ → K → Set K → K)
    (prog : ℕ → K → List (Phys K N)) (hP : ∀ k dt, ∀ P ∈ prog k dt, Symmetric Z nd P) (Y : Glob K N) (dt : K) (k : ℕ) :
    (refRun nd Dom wrap est ctrl prog k (Z.glob Y, dt)).1 = Z.glob (refRun nd Dom wrap est ctrl prog k (Y, dt)).1 ∧
    (refRun nd Dom wrap est ctrl prog k (Z.glob Y, dt)).2 = (refRun nd Dom wrap est ctrl prog k (Y, dt)).2 := by
  induction k with
  | zero => exact ⟨rfl, rfl⟩
  | succ k ih =>
    obtain ⟨i1, i2⟩ := ih
    simp only [refRun]
    rw [i1, i2, refStep_mirror Z nd _ (hP k _) wrap hw]
    exact ⟨rfl, by rw [estimates_mirror Z nd Dom hD ha est he]⟩

/-- **C134**: with a mirror-symmetric geometry and boundary treatment, mirror the initial data: after any number of steps the result is the mirror image
of the original result, on any two decompositions of the domain, and the time steps are the same. -/
theorem run_mirror {B B' : Type} (G : Grid B) (G' : Grid B') (Z : Plane K N) (nd : ℕ) (ha : Z.a.val < nd) (g : ℤ) (Dom : Pos → Prop)
    (hD : ∀ p, Dom (Z.cell p) ↔ Dom p) (hT : Tiles G nd g Dom) (hT' : Tiles G' nd g Dom) (hww : G.wrap = G'.wrap)
    (hw : ∀ p, G.wrap (Z.cell p) = Z.cell (G.wrap p)) (est : Pos → (Fin N → K) → (Fin 3 → K × K) → K) (he : SymmetricEst Z est)
    (ctrl : ℕ → K → Set K → K) (prog : ℕ → K → List (Phys K N)) (hP : ∀ k dt, ∀ P ∈ prog k dt, Symmetric Z nd P) (hg0 : 0 ≤ g)
    (hg : ∀ n dt, ∀ P ∈ prog n dt, 1 + radius P.rt ≤ g) (mem : ℕ → ℕ → B → Mem K N) (ho : Complete G mem) (mem' : ℕ → ℕ → B' → Mem K N)
    (ho' : Complete G' mem') (X : Mesh K N B) (X' : Mesh K N B') (Y : Glob K N) (dt : K) (h : Holds G X Y) (h' : Holds G' X' (Z.glob Y)) (k : ℕ) :
    (∀ i i' c c', (G.shape i).Interior c → (G'.shape i').Interior c' → Z.cell (fun e => c' e + G'.off i' e) = (fun e => c e + G.off i e) →
      (run G' est ctrl prog mem' k (X', dt)).1.1 i' c' = Z.val ((run G est ctrl prog mem k (X, dt)).1.1 i c)) ∧
    (run G' est ctrl prog mem' k (X', dt)).2 = (run G est ctrl prog mem k (X, dt)).2 := by
  obtain ⟨a1, a2⟩ := run_holds G nd g _ hT est ctrl prog hg0 hg mem ho X Y dt h k
  obtain ⟨b1, b2⟩ := run_holds G' nd g _ hT' est ctrl prog hg0 hg mem' ho' X' _ dt h' k
  rw [← hww] at b1 b2
  obtain ⟨s1, s2⟩ := refRun_mirror Z nd ha Dom hD G.wrap hw est he ctrl prog hP Y dt k
  refine ⟨fun i i' c c' hi hi' hcc => ?_, by rw [b2, s2, a2]⟩
  rw [b1.1 i' c' (interior_entire _ (by rw [hT'.ghosts]; omega) c' hi'), a1.1 i c (interior_entire _ (by rw [hT.ghosts]; omega) c hi), s1, ← hcc]
  rfl

/-- **C134 (symmetric data)**: data that are their own mirror image stay so. -/
theorem run_symmetric {B : Type} (G : Grid B) (Z : Plane K N) (nd : ℕ) (ha : Z.a.val < nd) (g : ℤ) (Dom : Pos → Prop)
    (hD : ∀ p, Dom (Z.cell p) ↔ Dom p) (hT : Tiles G nd g Dom) (hw : ∀ p, G.wrap (Z.cell p) = Z.cell (G.wrap p))
    (est : Pos → (Fin N → K) → (Fin 3 → K × K) → K) (he : SymmetricEst Z est)
    (ctrl : ℕ → K → Set K → K) (prog : ℕ → K → List (Phys K N)) (hP : ∀ k dt, ∀ P ∈ prog k dt, Symmetric Z nd P) (hg0 : 0 ≤ g)
    (hg : ∀ n dt, ∀ P ∈ prog n dt, 1 + radius P.rt ≤ g) (mem : ℕ → ℕ → B → Mem K N) (ho : Complete G mem)
    (X : Mesh K N B) (Y : Glob K N) (dt : K) (h : Holds G X Y) (hY : Z.glob Y = Y) (k : ℕ) (i i' : B) (c c' : Pos) (hi : (G.shape i).Interior c)
    (hi' : (G.shape i').Interior c') (hcc : Z.cell (fun e => c' e + G.off i' e) = fun e => c e + G.off i e) :
    (run G est ctrl prog mem k (X, dt)).1.1 i' c' = Z.val ((run G est ctrl prog mem k (X, dt)).1.1 i c) :=
  (run_mirror G G Z nd ha g Dom hD hT hT rfl hw est he ctrl prog hP hg0 hg mem ho mem ho X X Y dt h (by rw [hY]; exact h) k).1 i i' c c' hi hi' hcc

/-- the usual boundary treatments have the symmetry. -/
theorem wraps_mirror (n : Fin 3 → ℕ) (hn : ∀ d, 0 < n d) (a : Fin 3) (eps : Fin N → K) (eta : ℕ → K) (p : Pos) :
    let Z : Plane K N := ⟨a, n a, eps, eta⟩
    (Box n (Z.cell p) ↔ Box n p) ∧ wrapPeriodic n (Z.cell p) = Z.cell (wrapPeriodic n p) ∧ wrapNearest n (Z.cell p) = Z.cell (wrapNearest n p) := by
  intro Z
  refine ⟨⟨fun h d => ?_, fun h d => ?_⟩, ?_, ?_⟩
  · have := h d
    unfold Plane.cell at this
    by_cases hd : d = a
    · subst hd; simp only [Z, if_true] at this; omega
    · simpa only [Z, hd, if_false] using this
  · have := h d
    unfold Plane.cell
    by_cases hd : d = a
    · subst hd; simp only [Z, if_true]; omega
    · simpa only [Z, hd, if_false] using this
  · funext d
    unfold wrapPeriodic Plane.cell
    by_cases hd : d = a
    · subst hd
      simp only [Z, if_true]
      have h0 := Int.emod_nonneg (p d) (by have := hn d; omega : (n d : ℤ) ≠ 0)
      have h1 := Int.emod_lt_of_pos (p d) (by have := hn d; omega : (0 : ℤ) < n d)
      have e1 : (n d : ℤ) - 1 - p d = (n d - 1 - p d % n d) + n d * (-(p d / n d)) := by
        have := Int.mul_ediv_add_emod (p d) (n d)
        linarith
      rw [e1, Int.add_mul_emod_self_left]
      exact Int.emod_eq_of_lt (by omega) (by omega)
    · simp only [Z, hd, if_false]
  · funext d
    unfold wrapNearest Plane.cell
    by_cases hd : d = a
    · subst hd; simp only [Z, if_true]; have := hn d; omega
    · simp only [Z, hd, if_false]

end Phoebus.Step
