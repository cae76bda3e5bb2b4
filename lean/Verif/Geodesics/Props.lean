import Verif.Geodesics.Model

/-!
# C51: geodesic pushes
-/
namespace Phoebus.Geodesics
open Finset GeomUtils
variable {K : Type*} [Field K] [CharZero K]

/-- Specification: the contravariant Minkowski metric. -/
def etaInv (m n : Fin 4) : K := if m = n then (if m = 0 then -1 else 1) else 0

/-- Specification: contravariant components of `k` in Minkowski space. -/
def flatK (k : Fin 4 → K) (mu : Fin 4) : K := if mu = 0 then -k 0 else k mu

/-- **C51** In every geometry a push of size `dt` advances coordinate time by exactly `dt`. -/
theorem push_time (mk : Bool) (gcon : (Fin 4 → K) → Fin 4 → Fin 4 → K) (dt : K) (p : Ray K) :
    (push mk gcon dt p).X 0 = p.X 0 + dt := by
  simp [push, xSource]; ring

/-- **C51** ... through any history of pushes: the time reached is the starting time plus the sum of the steps. -/
theorem pushes_time (mk : Bool) (gcon : (Fin 4 → K) → Fin 4 → Fin 4 → K) (dts : List K) (p : Ray K) :
    (pushes mk gcon dts p).X 0 = p.X 0 + dts.sum := by
  induction dts generalizing p with
  | nil => simp [pushes]
  | cons dt l ih =>
    have := ih (push mk gcon dt p)
    rw [push_time] at this
    simp only [pushes, List.foldl_cons, List.sum_cons] at this ⊢
    rw [this]; ring

theorem raise_eta (k : Fin 4 → K) : raise etaInv k = flatK k := by
  funext mu
  have : mu = 0 ∨ mu = 1 ∨ mu = 2 ∨ mu = 3 := by omega
  rcases this with rfl | rfl | rfl | rfl <;> simp [raise, etaInv, flatK, Fin.sum_univ_four]

/-- one push in flat space, for the specialised and for the generic code path. -/
theorem push_flat (mk : Bool) (dt : K) (p : Ray K) :
    push mk (fun _ => etaInv) dt p = ⟨fun mu => p.X mu + dt * (if mu = 0 then 1 else flatK p.k mu / flatK p.k 0), p.k⟩ := by
  have hk : ∀ X k c, kSource mk (fun _ => (etaInv : Fin 4 → Fin 4 → K)) X k c = fun _ => 0 := by
    intro X k c; funext mu; unfold kSource; cases mk <;> simp
  simp only [push, hk, mul_zero, add_zero, raise_eta]
  congr 1
  funext mu
  have : mu = 0 ∨ mu = 1 ∨ mu = 2 ∨ mu = 3 := by omega
  rcases this with rfl | rfl | rfl | rfl <;> simp [xSource] <;> ring

/-- **C51** In Minkowski space the wave vector is constant and the path straight with coordinate velocity `k^i / k^0`, through
any number of pushes of any sizes; the specialised and the generic code agree. -/
theorem pushes_flat (mk : Bool) (dts : List K) (p : Ray K) :
    (pushes mk (fun _ => etaInv) dts p).k = p.k ∧
    ∀ mu, mu ≠ 0 → (pushes mk (fun _ => etaInv) dts p).X mu = p.X mu + dts.sum * (flatK p.k mu / flatK p.k 0) := by
  induction dts generalizing p with
  | nil => simp [pushes]
  | cons dt l ih =>
    have e : pushes mk (fun _ => (etaInv : Fin 4 → Fin 4 → K)) (dt :: l) p = pushes mk (fun _ => etaInv) l (push mk (fun _ => etaInv) dt p) := rfl
    obtain ⟨h1, h2⟩ := ih (push mk (fun _ => etaInv) dt p)
    rw [e]
    have hf := push_flat mk dt p
    rw [hf] at h1 h2 ⊢
    refine ⟨h1, fun mu hmu => ?_⟩
    rw [h2 mu hmu]
    simp only [if_neg hmu, List.sum_cons]
    ring

/-- **C51** Consequently the path depends only on the elapsed time, not on how it is split into steps. -/
theorem pushes_flat_split (mk : Bool) (dts dts' : List K) (h : dts.sum = dts'.sum) (p : Ray K) :
    pushes mk (fun _ => etaInv) dts p = pushes mk (fun _ => etaInv) dts' p := by
  obtain ⟨a1, a2⟩ := pushes_flat mk dts p
  obtain ⟨b1, b2⟩ := pushes_flat mk dts' p
  have hX : (pushes mk (fun _ => etaInv) dts p).X = (pushes mk (fun _ => etaInv) dts' p).X := by
    funext mu
    by_cases hmu : mu = 0
    · subst hmu; rw [pushes_time, pushes_time, h]
    · rw [a2 mu hmu, b2 mu hmu, h]
  have hk := a1.trans b1.symm
  revert hX hk
  generalize pushes mk _ dts p = q
  generalize pushes mk _ dts' p = r
  cases q; cases r; simp only [Ray.mk.injEq]; exact fun a b => ⟨a, b⟩

/-- **C51** A symmetry of the metric conserves the corresponding component of the wave vector exactly, through any number of
pushes: if the metric does not depend on `X mu` then `k_mu` never changes (energy in a stationary, angular momentum in an
axisymmetric spacetime). -/
theorem pushes_killing (mk : Bool) (gcon : (Fin 4 → K) → Fin 4 → Fin 4 → K) (mu : Fin 4)
    (hs : ∀ X x, gcon (Function.update X mu x) = gcon X) (dts : List K) (p : Ray K) :
    (pushes mk gcon dts p).k mu = p.k mu := by
  have hz : ∀ X k c, kSource mk gcon X k c mu = 0 := by
    intro X k c; unfold kSource; cases mk <;> simp [hs]
  have h1 : ∀ dt q, (push mk gcon dt q).k mu = q.k mu := by
    intro dt q; simp [push, hz]
  induction dts generalizing p with
  | nil => rfl
  | cons dt l ih =>
    have := ih (push mk gcon dt p)
    rw [h1] at this
    exact this

/-- **C51** The force is Hamilton's: for a metric whose dependence on `X mu` is at most quadratic the finite difference is exact,
`dk_mu/dt = -(d_mu g^(nu kappa)) k_nu k_kappa / (2 k^0)`. -/
theorem kSource_hamilton (gcon : (Fin 4 → K) → Fin 4 → Fin 4 → K) (X k : Fin 4 → K) (kcon0 : K) (mu : Fin 4)
    (A B C : Fin 4 → Fin 4 → K)
    (hq : ∀ x, gcon (Function.update X mu x) = fun a b => A a b + B a b * (x - X mu) + C a b * (x - X mu) ^ 2) :
    kSource false gcon X k kcon0 mu = -(∑ a, ∑ b, B a b * k a * k b) / (2 * kcon0) := by
  have hd : (X mu + delta - (X mu - delta)) = 2 * (delta : K) := by ring
  have hd0 : (delta : K) ≠ 0 := by unfold delta; norm_num
  have e : ∀ a b, k a * k b * ((gcon (Function.update X mu (X mu + delta)) a b - gcon (Function.update X mu (X mu - delta)) a b) /
      (X mu + delta - (X mu - delta))) = B a b * k a * k b := by
    intro a b
    rw [hq, hq, hd]; field_simp; ring
  simp only [kSource, Bool.false_eq_true, if_false, Function.update_self, e]
  ring

/-- Specification: one step of Heun's method for the same equations. -/
def heun (gcon : (Fin 4 → K) → Fin 4 → Fin 4 → K) (dt : K) (p : Ray K) : Ray K :=
  let f : Ray K → Ray K := fun q => ⟨xSource (raise (gcon q.X) q.k), kSource false gcon q.X q.k (raise (gcon q.X) q.k 0)⟩
  let a := f p
  let b := f ⟨fun mu => p.X mu + dt * a.X mu, fun mu => p.k mu + dt * a.k mu⟩
  ⟨fun mu => p.X mu + 1 / 2 * dt * (a.X mu + b.X mu), fun mu => p.k mu + 1 / 2 * dt * (a.k mu + b.k mu)⟩

/-- positions are pushed by Heun's method in every geometry, wave vectors only when the second force is the same at the old and
at the new point. -/
theorem push_heun_partial (gcon : (Fin 4 → K) → Fin 4 → Fin 4 → K) (dt : K) (p : Ray K) :
    (push false gcon dt p).X = (heun gcon dt p).X ∧
    ((∀ X Y k c, kSource false gcon X k c = kSource false gcon Y k c) → push false gcon dt p = heun gcon dt p) := by
  refine ⟨rfl, fun h => ?_⟩
  simp only [push, heun]
  congr 1
  funext mu
  rw [h p.X (fun mu => p.X mu + dt * xSource (raise (gcon p.X) p.k) mu)
    (fun mu => p.k mu + dt * kSource false gcon p.X p.k (raise (gcon p.X) p.k 0) mu)]

/-- **C51 fails as a second order method in a curved spacetime**: the second stage evaluates the force at the old position
(geodesics.hpp:110), so in the metric `g^11 = 1 + t^2` a photon at `t = 0` keeps `k_0` although Heun's step changes it. -/
theorem push_second_stage_wrong :
    ∃ (gcon : (Fin 4 → ℚ) → Fin 4 → Fin 4 → ℚ) (dt : ℚ) (p : Ray ℚ),
      (push false gcon dt p).k 0 = p.k 0 ∧ (heun gcon dt p).k 0 ≠ p.k 0 := by
  refine ⟨fun X => fun a b => if a = b then (if a = 0 then -1 else if a = 1 then 1 + X 0 ^ 2 else 1) else 0, 1, ⟨![0, 0, 0, 0], ![-1, 1, 0, 0]⟩, ?_, ?_⟩
  · simp [push, kSource, raise, xSource, Fin.sum_univ_four, delta, Function.update_apply]
  · simp [heun, kSource, raise, xSource, Fin.sum_univ_four, delta, Function.update_apply]
    norm_num

/-- A concrete history: two steps of a photon moving along the first axis. -/
theorem ex_pushes : (pushes false (fun _ => (etaInv : Fin 4 → Fin 4 → ℚ)) [1, 1 / 2] ⟨![0, 5, 0, 0], ![-2, 2, 0, 0]⟩).X 1 = 13 / 2 := by
  rw [(pushes_flat false [1, 1 / 2] _).2 1 (by decide)]
  simp [flatK]; norm_num

end Phoebus.Geodesics
