import Verif.MonteCarlo.Model
import Verif.Geodesics.Props
import Verif.Robust.Props
import Mathlib.MeasureTheory.Measure.Lebesgue.Basic

/-!
# Monte Carlo transport: conservation, absorption law, tuning (C69, C70, C71, C72)
-/
namespace Phoebus.MonteCarlo
open Finset Geom GeomUtils MeasureTheory

section Exchange
variable {C : Type*} [DecidableEq C] [Fintype C]

/-- Specification: covariant four-momentum of the fluid on the mesh: `-∑ τ d³x` and `∑ S_i d³x`. -/
def fluidP (d3x : ℝ) (U : Fluid C) (mu : Fin 4) : ℝ := d3x * ∑ c, (Fin.cons (-U.tau c) (U.S c) : Fin 4 → ℝ) mu

/-- Specification: covariant four-momentum of the packets. -/
def packetP (ps : List Packet) (mu : Fin 4) : ℝ := (ps.map fun p => p.w * p.ray.k mu).sum

/-- Specification: lepton number times nucleon mass: `∑ ye d³x` for the fluid, one per unit weight for the packets. -/
def leptons (d3x mp : ℝ) (s : Fluid C × List Packet) : ℝ :=
  d3x * ∑ c, s.1.ye c + (s.2.map fun p => leptonSign p.s * p.w * mp).sum

/-- Specification: the metric does not depend on coordinate `mu`. -/
def Symmetry (gcon : (Fin 4 → ℝ) → Fin 4 → Fin 4 → ℝ) (mu : Fin 4) : Prop :=
  ∀ X x, gcon (Function.update X mu x) = gcon X

/-- Specification: the absorption decision for a packet with its draw. -/
def Absorbed (E : Env C) (dt : ℝ) (p : Packet × ℝ) : Prop :=
  absorbs E.absorption (E.alphanu (E.cell p.1.ray.X) p.1.s (-p.1.ray.k 0 / E.h)) dt p.2

theorem push_k (mk : Bool) {gcon : (Fin 4 → ℝ) → Fin 4 → Fin 4 → ℝ} {mu : Fin 4} (hs : Symmetry gcon mu) (dt : ℝ)
    (p : Geodesics.Ray ℝ) : (Geodesics.push mk gcon dt p).k mu = p.k mu :=
  Geodesics.pushes_killing mk gcon mu hs [dt] p

open Classical in
/-- closed form of the transport loop: what is deposited in each cell and which packets remain. -/
theorem transport_eq (E : Env C) (dt : ℝ) (F : Force C) (ps : List (Packet × ℝ)) :
    (∀ c mu, (transport E dt F ps).1.G c mu = F.G c mu + (ps.map fun p =>
      if Absorbed E dt p ∧ c = E.cell p.1.ray.X then 1 / (E.d3x * dt) * p.1.w * p.1.ray.k mu else 0).sum) ∧
    (∀ c, (transport E dt F ps).1.ye c = F.ye c + (ps.map fun p =>
      if Absorbed E dt p ∧ c = E.cell p.1.ray.X then leptonSign p.1.s / (E.d3x * dt) * p.1.w * E.mp * E.u0 c else 0).sum) ∧
    (transport E dt F ps).2 = (ps.filter fun p => ¬ Absorbed E dt p).map fun p =>
      { p.1 with ray := Geodesics.push E.minkowski E.gcon dt p.1.ray } := by
  have key : ∀ (ps : List (Packet × ℝ)) (F : Force C) (l : List Packet),
      let r := ps.foldl (transportOne E dt) (F, l)
      (∀ c mu, r.1.G c mu = F.G c mu + (ps.map fun p =>
        if Absorbed E dt p ∧ c = E.cell p.1.ray.X then 1 / (E.d3x * dt) * p.1.w * p.1.ray.k mu else 0).sum) ∧
      (∀ c, r.1.ye c = F.ye c + (ps.map fun p =>
        if Absorbed E dt p ∧ c = E.cell p.1.ray.X then leptonSign p.1.s / (E.d3x * dt) * p.1.w * E.mp * E.u0 c else 0).sum) ∧
      r.2 = l ++ (ps.filter fun p => ¬ Absorbed E dt p).map fun p =>
        { p.1 with ray := Geodesics.push E.minkowski E.gcon dt p.1.ray } := by
    intro ps
    induction ps with
    | nil => intro F l; simp
    | cons p ps ih =>
      intro F l
      simp only [List.foldl_cons]
      by_cases ha : Absorbed E dt p
      · have e : transportOne E dt (F, l) p = (absorbForce (E.d3x * dt) E.mp E.u0 F (E.cell p.1.ray.X, p.1), l) := if_pos ha
        rw [e]
        obtain ⟨h1, h2, h3⟩ := ih (absorbForce (E.d3x * dt) E.mp E.u0 F (E.cell p.1.ray.X, p.1)) l
        refine ⟨fun c mu => ?_, fun c => ?_, ?_⟩
        · rw [h1]; simp only [List.map_cons, List.sum_cons, absorbForce, ha, true_and]
          split_ifs <;> ring
        · rw [h2]; simp only [List.map_cons, List.sum_cons, absorbForce, ha, true_and]
          split_ifs <;> ring
        · rw [h3]; simp [List.filter_cons, ha]
      · have e : transportOne E dt (F, l) p = (F, l ++ [{ p.1 with ray := Geodesics.push E.minkowski E.gcon dt p.1.ray }]) :=
          if_neg ha
        rw [e]
        obtain ⟨h1, h2, h3⟩ := ih F (l ++ [{ p.1 with ray := Geodesics.push E.minkowski E.gcon dt p.1.ray }])
        refine ⟨fun c mu => ?_, fun c => ?_, ?_⟩
        · rw [h1]; simp [ha]
        · rw [h2]; simp [ha]
        · rw [h3]; simp [List.filter_cons, ha]
  simpa [transport] using key ps F []

/-- **C70** the result of a transport step does not depend on the order in which the packets are processed (threads, swarm
slots): same five-force in every cell, same surviving packets. -/
theorem transport_perm (E : Env C) (dt : ℝ) (F : Force C) {ps qs : List (Packet × ℝ)} (h : ps.Perm qs) :
    (transport E dt F ps).1 = (transport E dt F qs).1 ∧ (transport E dt F ps).2.Perm (transport E dt F qs).2 := by
  obtain ⟨a1, a2, a3⟩ := transport_eq E dt F ps
  obtain ⟨b1, b2, b3⟩ := transport_eq E dt F qs
  constructor
  · have hG : (transport E dt F ps).1.G = (transport E dt F qs).1.G := by
      funext c mu; rw [a1, b1]; congr 1; exact (h.map _).sum_eq
    have hy : (transport E dt F ps).1.ye = (transport E dt F qs).1.ye := by
      funext c; rw [a2, b2]; congr 1; exact (h.map _).sum_eq
    cases hp : (transport E dt F ps).1; cases hq : (transport E dt F qs).1
    rw [hp, hq] at hG hy
    simp only at hG hy
    rw [hG, hy]
  · rw [a3, b3]; exact (h.filter _).map _

theorem list_sum_comm {A : Type*} (l : List A) (f : A → C → ℝ) : ∑ c, (l.map fun a => f a c).sum = (l.map fun a => ∑ c, f a c).sum := by
  induction l with
  | nil => simp
  | cons a l ih => simp [sum_add_distrib, ih]

theorem transport_momentum (E : Env C) {dt : ℝ} (hv : E.d3x * dt ≠ 0) {mu : Fin 4} (hs : Symmetry E.gcon mu) (F : Force C)
    (ps : List (Packet × ℝ)) :
    E.d3x * dt * ∑ c, (transport E dt F ps).1.G c mu + packetP (transport E dt F ps).2 mu =
      E.d3x * dt * ∑ c, F.G c mu + packetP (ps.map Prod.fst) mu := by
  classical
  have hx : E.d3x ≠ 0 := left_ne_zero_of_mul hv
  have ht : dt ≠ 0 := right_ne_zero_of_mul hv
  obtain ⟨a1, -, a3⟩ := transport_eq E dt F ps
  rw [a3]
  simp only [a1, sum_add_distrib]
  rw [list_sum_comm, mul_add, add_assoc]
  congr 1
  unfold packetP
  clear a1 a3
  induction ps with
  | nil => simp
  | cons p ps ih =>
    simp only [List.map_cons, List.sum_cons]
    rw [← ih]
    by_cases ha : Absorbed E dt p
    · simp only [ha, true_and, List.filter_cons]
      rw [Finset.sum_ite_eq' univ (E.cell p.1.ray.X)]
      simp
      field_simp
      ring
    · simp only [ha, false_and, List.filter_cons]
      simp [push_k _ hs]; ring

theorem emit_momentum (E : Env C) {dt : ℝ} (hv : E.d3x * dt ≠ 0) (mu : Fin 4) (es : List (C × Packet)) (F : Force C) :
    E.d3x * dt * ∑ c, (es.foldl (emitForce E.d3x dt E.mp E.u0) F).G c mu =
      E.d3x * dt * ∑ c, F.G c mu - packetP (es.map Prod.snd) mu := by
  have hx : E.d3x ≠ 0 := left_ne_zero_of_mul hv
  have ht : dt ≠ 0 := right_ne_zero_of_mul hv
  induction es generalizing F with
  | nil => simp [packetP]
  | cons e es ih =>
    rw [List.foldl_cons, ih]
    simp only [packetP, List.map_cons, List.sum_cons]
    have : ∑ c, (emitForce E.d3x dt E.mp E.u0 F e).G c mu = ∑ c, F.G c mu - 1 / (E.d3x * dt) * e.2.w * e.2.ray.k mu := by
      have e1 : ∀ c, (emitForce E.d3x dt E.mp E.u0 F e).G c mu = F.G c mu - if c = e.1 then 1 / (E.d3x * dt) * e.2.w * e.2.ray.k mu else 0 :=
        fun c => by simp only [emitForce]; split_ifs <;> ring
      simp [e1, sum_sub_distrib]
    rw [this]
    field_simp
    ring

theorem fluidP_apply (d3x dt : ℝ) (F : Force C) (U : Fluid C) (mu : Fin 4) :
    fluidP d3x (applyForce dt F U) mu = fluidP d3x U mu + d3x * dt * ∑ c, F.G c mu := by
  unfold fluidP applyForce
  have e : ∀ c, (Fin.cons (-(U.tau c - F.G c 0 * dt)) (fun i : Fin 3 => U.S c i + F.G c i.succ * dt) : Fin 4 → ℝ) mu =
      (Fin.cons (-U.tau c) (U.S c) : Fin 4 → ℝ) mu + dt * F.G c mu := fun c => by
    refine Fin.cases ?_ (fun i => ?_) mu
    · simp; ring
    · simp; ring
  simp only [e, sum_add_distrib, ← mul_sum]
  ring

theorem zipIdx_fst (l : List Packet) (draw : ℕ → ℝ) : (l.zipIdx.map fun p => (p.1, draw p.2)).map Prod.fst = l := by
  rw [List.map_map]
  have : ((Prod.fst : Packet × ℝ → Packet) ∘ fun p : Packet × ℕ => (p.1, draw p.2)) = Prod.fst := rfl
  rw [this]; exact List.zipIdx_map_fst 0 l

/-- **C69** a Monte Carlo step conserves the total of fluid and packet four-momentum along every coordinate the metric does
not depend on. -/
theorem step_momentum (E : Env C) {dt : ℝ} (hv : E.d3x * dt ≠ 0) {mu : Fin 4} (hs : Symmetry E.gcon mu)
    (es : List (C × Packet)) (draw : ℕ → ℝ) (s : Fluid C × List Packet) :
    fluidP E.d3x (step E dt es draw s).1 mu + packetP (step E dt es draw s).2 mu = fluidP E.d3x s.1 mu + packetP s.2 mu := by
  unfold step
  simp only
  rw [fluidP_apply, add_assoc, transport_momentum E hv hs, emit_momentum E hv, zipIdx_fst]
  simp [zeroForce, packetP]

/-- **C69** through any history: energy is conserved in every stationary metric and each momentum component along every
symmetry, whatever is emitted, absorbed or drawn at random, with steps of any size. -/
theorem run_momentum (E : Env C) {mu : Fin 4} (hs : Symmetry E.gcon mu) (h : List (Input C))
    (hv : ∀ i ∈ h, E.d3x * i.dt ≠ 0) (s : Fluid C × List Packet) :
    fluidP E.d3x (run E h s).1 mu + packetP (run E h s).2 mu = fluidP E.d3x s.1 mu + packetP s.2 mu := by
  unfold run
  induction h generalizing s with
  | nil => rfl
  | cons i h ih =>
    rw [List.foldl_cons, ih (fun j hj => hv j (List.mem_cons_of_mem _ hj)), step_momentum E (hv i List.mem_cons_self) hs]

/-- one step changes the lepton total only through the factor `Ucon[0]` put on the exchanged number. -/
theorem step_leptons (E : Env C) {dt : ℝ} (hv : E.d3x * dt ≠ 0) (h1 : ∀ c, E.u0 c = 1)
    (es : List (C × Packet)) (draw : ℕ → ℝ) (s : Fluid C × List Packet) :
    leptons E.d3x E.mp (step E dt es draw s) = leptons E.d3x E.mp s := by
  classical
  have hx : E.d3x ≠ 0 := left_ne_zero_of_mul hv
  have ht : dt ≠ 0 := right_ne_zero_of_mul hv
  unfold step leptons
  simp only
  set ps := ((s.2 ++ es.map Prod.snd).zipIdx.map fun p => (p.1, draw p.2)) with hps
  have hfst : ps.map Prod.fst = s.2 ++ es.map Prod.snd := zipIdx_fst _ _
  set F1 := es.foldl (emitForce E.d3x dt E.mp E.u0) zeroForce
  have hemit : ∀ (es : List (C × Packet)) (F : Force C), E.d3x * dt * ∑ c, (es.foldl (emitForce E.d3x dt E.mp E.u0) F).ye c =
      E.d3x * dt * ∑ c, F.ye c - ((es.map Prod.snd).map fun p => leptonSign p.s * p.w * E.mp).sum := by
    intro es
    induction es with
    | nil => simp
    | cons e es ih =>
      intro F
      rw [List.foldl_cons, ih]
      simp only [List.map_cons, List.sum_cons]
      have : ∑ c, (emitForce E.d3x dt E.mp E.u0 F e).ye c = ∑ c, F.ye c - leptonSign e.2.s / (E.d3x * dt) * e.2.w * E.mp := by
        have e1 : ∀ c, (emitForce E.d3x dt E.mp E.u0 F e).ye c =
            F.ye c - if c = e.1 then leptonSign e.2.s / (E.d3x * dt) * e.2.w * E.mp else 0 :=
          fun c => by simp only [emitForce, h1]; split_ifs <;> ring
        simp [e1, sum_sub_distrib]
      rw [this]
      field_simp
      ring
  obtain ⟨-, a2, a3⟩ := transport_eq E dt F1 ps
  have htr : E.d3x * dt * ∑ c, (transport E dt F1 ps).1.ye c + ((transport E dt F1 ps).2.map fun p => leptonSign p.s * p.w * E.mp).sum =
      E.d3x * dt * ∑ c, F1.ye c + ((ps.map Prod.fst).map fun p => leptonSign p.s * p.w * E.mp).sum := by
    rw [a3]
    simp only [a2, sum_add_distrib, h1]
    rw [list_sum_comm, mul_add, add_assoc]
    congr 1
    clear a2 a3 hfst hps
    induction ps with
    | nil => simp
    | cons p ps ih =>
      simp only [List.map_cons, List.sum_cons]
      rw [← ih]
      by_cases ha : Absorbed E dt p
      · simp only [ha, true_and, List.filter_cons]
        rw [Finset.sum_ite_eq' univ (E.cell p.1.ray.X)]
        simp
        field_simp
        ring
      · simp only [ha, false_and, List.filter_cons]
        simp; ring
  have hz := hemit es zeroForce
  have e1 : ∑ c, (applyForce dt (transport E dt F1 ps).1 s.1).ye c = ∑ c, s.1.ye c + dt * ∑ c, (transport E dt F1 ps).1.ye c := by
    simp only [applyForce, sum_add_distrib, mul_sum]; congr 1; exact sum_congr rfl fun _ _ => by ring
  rw [e1]
  rw [hfst, List.map_append, List.sum_append] at htr
  have h0 : ∑ c : C, (zeroForce : Force C).ye c = 0 := by simp [zeroForce]
  rw [h0] at hz
  linarith

/-- **C69** lepton number is conserved through any history as long as the fluid is at rest in flat spacetime
(`Ucon[0] = 1`).  What is missing: see `lepton_defect`. -/
theorem run_leptons_partial (E : Env C) (h1 : ∀ c, E.u0 c = 1) (h : List (Input C)) (hv : ∀ i ∈ h, E.d3x * i.dt ≠ 0)
    (s : Fluid C × List Packet) : leptons E.d3x E.mp (run E h s) = leptons E.d3x E.mp s := by
  unfold run
  induction h generalizing s with
  | nil => rfl
  | cons i h ih =>
    rw [List.foldl_cons, ih (fun j hj => hv j (List.mem_cons_of_mem _ hj)), step_leptons E (hv i List.mem_cons_self) h1]

/-- **C69** fails for moving fluid: emitting one packet changes the total lepton number by `(1 - Ucon[0])` packets. -/
theorem lepton_defect (E : Env C) (ha : ¬ E.absorption) {dt : ℝ} (hv : E.d3x * dt ≠ 0) (e : C × Packet) (draw : ℕ → ℝ)
    (U : Fluid C) :
    leptons E.d3x E.mp (step E dt [e] draw (U, [])) - leptons E.d3x E.mp (U, []) =
      leptonSign e.2.s * e.2.w * E.mp * (1 - E.u0 e.1) := by
  have h0 : ∀ p, ¬ Absorbed E dt p := fun p h => ha h.1
  have e2 : transportOne E dt (emitForce E.d3x dt E.mp E.u0 zeroForce e, []) (e.2, draw 0) =
      (emitForce E.d3x dt E.mp E.u0 zeroForce e, [] ++ [{ e.2 with ray := Geodesics.push E.minkowski E.gcon dt e.2.ray }]) :=
    if_neg (h0 (e.2, draw 0))
  unfold step transport leptons
  simp only [List.foldl_cons, List.foldl_nil, List.nil_append, List.map_cons, List.map_nil, List.zipIdx_cons, List.zipIdx_nil]
  rw [e2]
  have e1 : ∑ c, (applyForce dt (emitForce E.d3x dt E.mp E.u0 zeroForce e) U).ye c =
      ∑ c, U.ye c - dt * (leptonSign e.2.s / (E.d3x * dt) * E.u0 e.1 * e.2.w * E.mp) := by
    have e3 : ∀ c, (applyForce dt (emitForce E.d3x dt E.mp E.u0 zeroForce e) U).ye c =
        U.ye c - if c = e.1 then dt * (leptonSign e.2.s / (E.d3x * dt) * E.u0 e.1 * e.2.w * E.mp) else 0 := fun c => by
      simp only [applyForce, emitForce, zeroForce]; split_ifs with h
      · subst h; ring
      · ring
    simp [e3, sum_sub_distrib]
  rw [e1]
  simp
  have hx : E.d3x ≠ 0 := left_ne_zero_of_mul hv
  have ht : dt ≠ 0 := right_ne_zero_of_mul hv
  field_simp
  ring

end Exchange

/-! ## C71: the absorption law -/

/-- **C71** a packet is absorbed exactly when its draw is at least `exp(-τ)`. -/
theorem absorbs_iff {a dt u : ℝ} (hu : 0 < u) : absorbs True a dt u ↔ Real.exp (-(a * dt)) ≤ u := by
  unfold absorbs
  rw [true_and, ← Real.le_log_iff_exp_le hu]
  constructor <;> intro h <;> linarith

/-- **C71** the absorption probability over a uniform draw is `1 - exp(-τ)`: the exponential attenuation law. -/
theorem absorption_probability {a dt : ℝ} :
    volume {u : ℝ | u ∈ Set.Ioo (0 : ℝ) 1 ∧ absorbs True a dt u} = ENNReal.ofReal (1 - Real.exp (-(a * dt))) := by
  have e : {u : ℝ | u ∈ Set.Ioo (0 : ℝ) 1 ∧ absorbs True a dt u} = Set.Ico (Real.exp (-(a * dt))) 1 := by
    ext u
    constructor
    · rintro ⟨⟨h0, h1⟩, h2⟩; exact ⟨(absorbs_iff h0).1 h2, h1⟩
    · rintro ⟨h0, h1⟩
      have : 0 < u := lt_of_lt_of_le (Real.exp_pos _) h0
      exact ⟨⟨this, h1⟩, (absorbs_iff this).2 h0⟩
  rw [e, Real.volume_Ico]

/-- **C71** no absorption without opacity, and none when absorption is switched off. -/
theorem no_absorption {a dt u : ℝ} (hu : 0 < u) (hu1 : u < 1) : (a = 0 → ¬ absorbs True a dt u) ∧ ¬ absorbs False a dt u := by
  refine ⟨?_, fun h => h.1⟩
  rintro rfl h
  rw [absorbs_iff hu] at h
  simp at h; linarith

/-! ## C72: tuning -/

/-- **C72** the correction of the emission rate is limited to `[3/4, 4/3]` whatever was counted, including when nothing was. -/
theorem correction_bounds {eps : ℝ} (he : 0 ≤ eps) (he1 : eps ≤ 1 / 4) (em ab dtT np : ℝ) :
    3 / 4 ≤ emissionCorrection eps em ab dtT np ∧ emissionCorrection eps em ab dtT np ≤ 4 / 3 := by
  unfold emissionCorrection
  simp only
  split
  · unfold Robust.makeBounded
    refine ⟨le_min (le_trans (by linarith) (le_max_right _ _)) (by linarith), (min_le_right _ _).trans (by linarith)⟩
  · constructor <;> linarith

/-- **C72** direction: too few net emissions raise the rate, too many lower it. -/
theorem correction_direction {eps : ℝ} (he1 : eps ≤ 1 / 8) {em ab dtT np : ℝ} (hr : 0 < em - ab) :
    (em - ab ≤ dtT * np → 1 ≤ emissionCorrection eps em ab dtT np) ∧
    (dtT * np ≤ em - ab → emissionCorrection eps em ab dtT np ≤ 1) := by
  have e : emissionCorrection eps em ab dtT np = Robust.makeBounded eps (dtT * np / (em - ab)) (3 / 4) (4 / 3) := by
    unfold emissionCorrection divC
    simp only [not_lt.2 hr.le, if_false, hr.ne', div_one]
  rw [e]
  unfold Robust.makeBounded
  constructor
  · intro h
    exact le_min (le_trans ((one_le_div hr).2 h) (le_max_left _ _)) (by linarith)
  · intro h
    exact (min_le_left _ _).trans (max_le ((div_le_one hr).2 h) (by linarith))

/-- the counts and times of one call of the tuning task. -/
structure TuneIn where
  Jtot : ℝ
  em : ℝ
  ab : ℝ
  tEnd : ℝ

/-- **C72** the tuning factor stays positive through any history of calls, and after `n` calls has changed by at most
`(4/3)^n` either way. -/
theorem tuning_history {eps : ℝ} (he : 0 ≤ eps) (he1 : eps ≤ 1 / 4) (L h nu dtT np : ℝ) (l : List TuneIn) (s : ℝ × ℝ × ℝ)
    (h0 : 0 < s.1) :
    let r := l.foldl (fun s i => updateTuning eps i.Jtot L h nu i.em i.ab dtT np i.tEnd s) s
    0 < r.1 ∧ (3 / 4) ^ l.length * s.1 ≤ r.1 ∧ r.1 ≤ (4 / 3) ^ l.length * s.1 := by
  induction l generalizing s with
  | nil => simp [h0]
  | cons i l ih =>
    simp only [List.foldl_cons, List.length_cons]
    have hb := correction_bounds he he1 i.em i.ab dtT np
    have hs : 0 < (updateTuning eps i.Jtot L h nu i.em i.ab dtT np i.tEnd s).1 ∧
        3 / 4 * s.1 ≤ (updateTuning eps i.Jtot L h nu i.em i.ab dtT np i.tEnd s).1 ∧
        (updateTuning eps i.Jtot L h nu i.em i.ab dtT np i.tEnd s).1 ≤ 4 / 3 * s.1 := by
      unfold updateTuning
      split_ifs
      · refine ⟨mul_pos (by linarith) h0, ?_, ?_⟩ <;> simp only <;> nlinarith
      · refine ⟨h0, ?_, ?_⟩ <;> linarith
    obtain ⟨a, b, d⟩ := ih _ hs.1
    refine ⟨a, le_trans ?_ b, d.trans ?_⟩
    · rw [pow_succ, mul_assoc]; exact mul_le_mul_of_nonneg_left hs.2.1 (by positivity)
    · rw [pow_succ, mul_assoc]; exact mul_le_mul_of_nonneg_left hs.2.2 (by positivity)

/-- **C72** disagreement: after a tuning the number of packets due per emitted energy changes by the square of the
correction, because both the base weight and the tuning factor carry it.  The number due is `tune · X / wgtC`. -/
theorem tuning_squared (eps Jtot L h nu em ab dtT np tEnd X : ℝ) {tune t : ℝ} (ht : t < tEnd) (hJ : Jtot ≠ 0) (hL : L ≠ 0)
    (hh : h ≠ 0) (hn : nu ≠ 0) (h0 : tune ≠ 0) (hc : emissionCorrection eps em ab dtT np ≠ 0) :
    let s' := updateTuning eps Jtot L h nu em ab dtT np tEnd (tune, setWeight tune Jtot L h nu, t)
    s'.1 * X / s'.2.1 = emissionCorrection eps em ab dtT np ^ 2 * (tune * X / setWeight tune Jtot L h nu) := by
  unfold updateTuning setWeight
  rw [if_pos ht]
  simp only
  field_simp

/-- **C72** disagreement: the scattering correction is not limited, and is infinite when nothing scattered, which is always
the case since no code counts scatterings. -/
theorem scattering_unbounded : scatteringCorrection 0 100 100 = none ∧
    ∀ B : ℝ, ∃ scattered > 0, ∃ x > B, scatteringCorrection scattered 100 100 = some x := by
  refine ⟨by simp [scatteringCorrection, divC], fun B => ?_⟩
  refine ⟨1 / (|B| + 1), by positivity, 10000 * (|B| + 1), ?_, ?_⟩
  · have := le_abs_self B; have := abs_nonneg B; linarith
  · have : (1 / (|B| + 1) : ℝ) ≠ 0 := by positivity
    simp only [scatteringCorrection, divC, if_neg this]
    congr 1
    field_simp
    norm_num

/-- **C72** exactly: the number scattered times the correction is the number of packets times the tuning interval, so the correction keeps the intended limits 1/2 and 2 exactly if the number scattered is within a factor two of that. -/
theorem scattering_exact {scattered dtTune np : ℝ} (h : 0 < scattered) : ∃ x, scatteringCorrection scattered dtTune np = some x ∧ scattered * x = dtTune * np ∧
    ((1/2 ≤ x ∧ x ≤ 2) ↔ scattered ≤ 2 * (dtTune * np) ∧ dtTune * np ≤ 2 * scattered) := by
  refine ⟨dtTune * np / scattered, by simp [scatteringCorrection, divC, h.ne'], by field_simp, ?_⟩
  rw [div_le_iff₀ h, le_div_iff₀ h]
  constructor <;> rintro ⟨a, b⟩ <;> constructor <;> linarith

/-- **C72** the completion test is right when every rank holds one block. -/
theorem allDone_partial (ranks : List (List ℕ)) (h : ∀ r ∈ ranks, r.length ≤ 1) :
    allDone ranks = true ↔ ∀ r ∈ ranks, ∀ n ∈ r, n = 0 := by
  unfold allDone
  rw [decide_eq_true_iff]
  have hc : ∀ r ∈ ranks, countUnfinished r = 0 ↔ ∀ n ∈ r, n = 0 := fun r hr => by
    have := h r hr
    match r, this with
    | [], _ => simp [countUnfinished]
    | [a], _ => simp [countUnfinished]
  rw [List.sum_eq_zero_iff]
  simp only [List.mem_map]
  constructor
  · intro hs r hr; exact (hc r hr).1 (hs _ ⟨r, hr, rfl⟩)
  · rintro hs _ ⟨r, hr, rfl⟩; exact (hc r hr).2 (hs r hr)

/-- **C72** disagreement: with two blocks on a rank the test can report completion while packets are unfinished. -/
theorem allDone_wrong : allDone [[3, 0]] = true := by decide

/-- a concrete run: one emission and one absorption in flat space with two cells. -/
theorem ex_run : let E : Env (Fin 2) := ⟨true, fun _ => Geodesics.etaInv, fun X => if X 1 < 0 then 0 else 1, fun _ _ _ => 1, fun _ => 1, 1, 1, 1/2, True⟩
    Symmetry E.gcon 0 ∧ Symmetry E.gcon 1 ∧
    (run E [⟨1/4, [(0, ⟨0, ⟨![0, -1, 0, 0], ![-2, 2, 0, 0]⟩, 3⟩)], fun _ => 1/2⟩,
      ⟨1, [], fun _ => 1⟩] (⟨fun _ => 0, fun _ _ => 0, fun _ => 0⟩, [])).2 = [] := by
  refine ⟨fun X x => rfl, fun X x => rfl, ?_⟩
  simp only [run, List.foldl_cons, List.foldl_nil, step, List.nil_append, List.map_cons, List.map_nil]
  have h1 : Real.log (1 / 2) < -(1 / 4) := by
    rw [Real.log_lt_iff_lt_exp (by norm_num)]
    have := Real.add_one_lt_exp (show (-(1 / 4) : ℝ) ≠ 0 by norm_num)
    linarith
  simp only [transport, List.zipIdx_cons, List.zipIdx_nil, List.map_cons, List.map_nil, List.foldl_cons, List.foldl_nil]
  have n1 : ¬ absorbs True 1 (1 / 4) (1 / 2) := fun h => by have := h.2; linarith
  have n2 : absorbs True 1 1 1 := ⟨trivial, by simp⟩
  simp only [transportOne, n1, if_false, List.nil_append, List.map_cons, List.map_nil, List.append_nil, List.zipIdx_cons, List.zipIdx_nil,
    List.foldl_cons, List.foldl_nil, n2, if_true]

/-- **C69** Lepton number of a packet: `+1` for electron neutrinos (species 0), `-1` for electron antineutrinos (1), `0` for the rest. -/
theorem lepton_numbers (s : ℕ) : leptonSign s = if s = 0 then 1 else if s = 1 then -1 else 0 := by
  unfold leptonSign
  rcases s with _ | _ | s
  · simp
  · simp
  · simp

/-- The retuned weight is the one with which the grid-wide emissivity `Jtot`, collected over one light-crossing time `L` at the lowest
frequency, is represented by `tune` packets. -/
theorem weight_packets (tune Jtot L h nu0 : ℝ) (ht : tune ≠ 0) (hJ : Jtot ≠ 0) (hL : L ≠ 0) (hh : h ≠ 0) (hn : nu0 ≠ 0) :
    Jtot * L / (h * (setWeight tune Jtot L h nu0 / nu0)) = tune := by
  unfold setWeight; field_simp

/-- One pass of the controller: it acts exactly when its due time has come (`t_tune < t_end`), and then the due time advances by one
tuning interval. -/
theorem tuning_due (eps Jtot L h nu em ab dtT np tEnd tune w t : ℝ) :
    updateTuning eps Jtot L h nu em ab dtT np tEnd (tune, w, t) =
      if t < tEnd then (emissionCorrection eps em ab dtT np * tune, setWeight (emissionCorrection eps em ab dtT np * tune) Jtot L h nu, t + dtT)
      else (tune, w, t) := rfl

end Phoebus.MonteCarlo
