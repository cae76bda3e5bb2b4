import Verif.MomentSource.Model
import Verif.Closure.Props

/-!
# C49: exchange of energy and momentum between radiation and matter
-/
namespace Phoebus.MomentSource
open Geom Robust LinAlg Finset Closure

/-- total energy and momentum of a cell with `n` species. -/
noncomputable def total (n : ℕ) (s : Cell) : V4 := fun m => s.fluid m + ∑ k ∈ Finset.range n, s.rad k m

/-- **C49** When the solver succeeds, the fluid is updated and the primitive recovery of every species succeeds, total energy and
momentum are conserved exactly, for any increments and any number of species. -/
theorem exchange_conserves (sdetgam : ℝ) (d : ℕ → V4) (recov : Cell → ℕ → Bool) (hrec : ∀ s k, recov s k = true) (floorF floorR : V4)
    (nspec : ℕ) (s : Cell) (m : Fin 4) :
    total nspec (applyAll sdetgam true true d recov floorF floorR nspec s) m = total nspec s m := by
  have key : ∀ n ≤ nspec, (applyAll sdetgam true true d recov floorF floorR n s).fluid m = s.fluid m - ∑ k ∈ Finset.range n, sdetgam * d k m ∧
      ∀ k, (applyAll sdetgam true true d recov floorF floorR n s).rad k m = s.rad k m + (if k < n then sdetgam * d k m else 0) := by
    intro n
    induction n with
    | zero => intro _; simp [applyAll]
    | succ n ih =>
      intro hn
      obtain ⟨h1, h2⟩ := ih (by omega)
      have e : applyAll sdetgam true true d recov floorF floorR (n + 1) s =
          applySpecies sdetgam true true d recov floorF floorR (applyAll sdetgam true true d recov floorF floorR n s) n := by
        simp [applyAll, List.range_succ]
      rw [e]
      set t := applyAll sdetgam true true d recov floorF floorR n s
      simp only [applySpecies, if_true, hrec]
      constructor
      · rw [h1, Finset.sum_range_succ]; ring
      · intro k
        by_cases hk : k = n
        · rw [if_pos hk, h2, hk, if_neg (by omega), if_pos (by omega)]; ring
        · rw [if_neg hk, h2]
          have : (k < n + 1) ↔ k < n := by omega
          simp only [this]
  obtain ⟨h1, h2⟩ := key nspec le_rfl
  unfold total
  rw [h1]
  simp only [h2]
  rw [Finset.sum_add_distrib]
  have : ∑ k ∈ Finset.range nspec, (if k < nspec then sdetgam * d k m else 0) = ∑ k ∈ Finset.range nspec, sdetgam * d k m :=
    Finset.sum_congr rfl fun k hk => by rw [if_pos (Finset.mem_range.1 hk)]
  rw [this]; ring

/-- **C49** Without the fluid update the fluid is untouched, in every branch. -/
theorem no_fluid_update (sdetgam : ℝ) (success : Bool) (d : ℕ → V4) (recov : Cell → ℕ → Bool) (floorF floorR : V4) (nspec : ℕ) (s : Cell) :
    (applyAll sdetgam success false d recov floorF floorR nspec s).fluid = s.fluid := by
  induction nspec with
  | zero => rfl
  | succ n ih =>
    have e : applyAll sdetgam success false d recov floorF floorR (n + 1) s =
        applySpecies sdetgam success false d recov floorF floorR (applyAll sdetgam success false d recov floorF floorR n s) n := by
      simp [applyAll, List.range_succ]
    rw [e, ← ih]
    simp only [applySpecies]
    cases success <;> simp <;> split_ifs <;> rfl

/-- **C49 fails when the solver fails**: the radiation is left alone but the fluid is still changed, by whatever is in the increment
arrays: total energy is conserved only if that happens to be zero. -/
theorem exchange_failure (sdetgam : ℝ) (hs : sdetgam ≠ 0) (d : ℕ → V4) (recov : Cell → ℕ → Bool) (hrec : ∀ s k, recov s k = true)
    (floorF floorR : V4) (s : Cell) (m : Fin 4) :
    let t := applyAll sdetgam false true d recov floorF floorR 1 s
    t.rad 0 m = s.rad 0 m ∧ t.fluid m = s.fluid m - sdetgam * d 0 m ∧ (total 1 t m = total 1 s m ↔ d 0 m = 0) := by
  intro t
  have h1 : t.rad 0 m = s.rad 0 m := by simp [t, applyAll, applySpecies, hrec, List.range_succ]
  have h2 : t.fluid m = s.fluid m - sdetgam * d 0 m := by simp [t, applyAll, applySpecies, hrec, List.range_succ]
  refine ⟨h1, h2, ?_⟩
  simp only [total, Finset.sum_range_one, h1, h2]
  constructor
  · intro h
    have : sdetgam * d 0 m = 0 := by linarith
    exact (mul_eq_zero.1 this).resolve_left hs
  · intro h; rw [h]; ring

/-- … and the one-dimensional solver does fail with increments that are not zero: without a fixup strategy, a failed closure
check leaves the rejected increments in place, a failed temperature search leaves uninitialised memory. -/
theorem oned_failure_leaves_increments (dFull dRetry garbage : V4) :
    oned .none ⟨true, false, false⟩ dFull dRetry garbage = (false, dFull) ∧
    oned .none ⟨false, false, false⟩ dFull dRetry garbage = (false, garbage) ∧
    oned .ignoreDJ ⟨true, false, false⟩ dFull dRetry garbage = (false, dRetry) := by
  simp [oned]

/-- **C49** with the `ignore_all` strategy the solver never fails: either the update is accepted or nothing is exchanged. -/
theorem oned_ignore_all (o : OneD) (dFull dRetry garbage : V4) :
    let r := oned .ignoreAll o dFull dRetry garbage
    r.1 = true ∧ (r.2 = dFull ∨ r.2 = fun _ => 0) := by
  unfold oned
  rcases o with ⟨a, b, c⟩
  cases a <;> cases b <;> simp

/-- the end-to-end statement for the one-dimensional solver with `ignore_all`: exact conservation in every branch of the solver. -/
theorem oned_ignore_all_conserves (o : OneD) (dFull dRetry garbage : V4) (sdetgam : ℝ) (recov : Cell → ℕ → Bool)
    (hrec : ∀ s k, recov s k = true) (floorF floorR : V4) (s : Cell) (m : Fin 4) :
    let r := oned .ignoreAll o dFull dRetry garbage
    total 1 (applyAll sdetgam r.1 true (fun _ => r.2) recov floorF floorR 1 s) m = total 1 s m := by
  intro r
  have h := (oned_ignore_all o dFull dRetry garbage).1
  have : r.1 = true := h
  rw [this]
  exact exchange_conserves sdetgam _ recov hrec floorF floorR 1 s m

/-- **C49 fails when the primitive recovery fails**: the cell is overwritten by the floor state. -/
theorem recovery_failure : ∃ (s : Cell) (recov : Cell → ℕ → Bool),
    total 1 (applyAll 1 true true (fun _ _ => 0) recov 0 0 1 s) 0 ≠ total 1 s 0 := by
  refine ⟨⟨fun _ => 1, fun _ _ => 1⟩, fun _ _ => false, ?_⟩
  simp [total, applyAll, applySpecies, List.range_succ]
  norm_num

/-! ### the four-dimensional solver -/

theorem loop_some (m : Solver4) (eps large SMALL xiMax tol : ℝ) (flux : V4 → ℝ) (n : ℕ) (P Q : V4)
    (h : m.loop eps large SMALL xiMax tol flux n P = some Q) : m.err SMALL Q ≤ tol := by
  induction n generalizing P with
  | zero => simp [Solver4.loop] at h
  | succ n ih =>
    rw [Solver4.loop] at h
    split at h
    · simp at h
    · rename_i P1 _
      split_ifs at h with h1 h2
      · exact ih P1 h
      · simp only [Option.some.injEq] at h
        rw [← h]; exact not_lt.1 h2

theorem foldl_if_ge {f : Fin 4 → ℝ} (l : List (Fin 4)) (a : ℝ) :
    a ≤ l.foldl (fun a n => if f n > a then f n else a) a ∧ ∀ n ∈ l, f n ≤ l.foldl (fun a n => if f n > a then f n else a) a := by
  induction l generalizing a with
  | nil => simp
  | cons x l ih =>
    simp only [List.foldl_cons]
    obtain ⟨h1, h2⟩ := ih (if f x > a then f x else a)
    have hx : f x ≤ (if f x > a then f x else a) := by split_ifs with h <;> linarith
    have ha : a ≤ (if f x > a then f x else a) := by split_ifs with h <;> linarith
    refine ⟨ha.trans h1, fun n hn => ?_⟩
    rcases List.mem_cons.1 hn with rfl | hn
    · exact hx.trans h1
    · exact h2 n hn

theorem maxDiv_ge (m : Solver4) (SMALL : ℝ) (P : V4) : SMALL ≤ m.maxDiv SMALL P := by
  unfold Solver4.maxDiv
  have : ∀ (l : List (Fin 4)) (a : ℝ), a ≤ l.foldl (fun a n => max a (|m.mhd P n| + |m.U0 n| + |m.dt * m.S P n|)) a := by
    intro l
    induction l with
    | nil => intro a; exact le_rfl
    | cons x l ih => intro a; exact (le_max_left _ _).trans (ih _)
  exact this _ _

/-- **C49** When the four-dimensional solver succeeds, there is a fluid state such that what the radiation gains is exactly what the
fluid loses (energy and all momenta), and the implicit equation `U - U0 = -dt S` holds to the requested relative tolerance. -/
theorem fourd_success (m : Solver4) (eps large SMALL xiMax tol sdetgam : ℝ) (hS : 0 < SMALL) (hg : sdetgam ≠ 0) (flux : V4 → ℝ) (maxiter : ℕ)
    (P0 d : V4) (h : m.solve4 eps large SMALL xiMax tol sdetgam flux maxiter P0 = some d) :
    ∃ P, (∀ n, sdetgam * d n = -(m.mhd P n - m.U0 n)) ∧
      ∀ n, |m.mhd P n - m.U0 n + m.dt * m.S P n| ≤ tol * m.maxDiv SMALL P := by
  unfold Solver4.solve4 at h
  rw [Option.map_eq_some_iff] at h
  obtain ⟨P, hP, hd⟩ := h
  refine ⟨P, fun n => ?_, fun n => ?_⟩
  · rw [← hd]; simp only [Solver4.rad, radConserved]; field_simp; ring
  · have he := loop_some m eps large SMALL xiMax tol flux maxiter P0 P hP
    have hmd := lt_of_lt_of_le hS (maxDiv_ge m SMALL P)
    have h1 := (foldl_if_ge (f := fun n => |m.resid P n| / m.maxDiv SMALL P) (List.finRange 4) SMALL).2 n (List.mem_finRange n)
    have h2 : |m.resid P n| / m.maxDiv SMALL P ≤ tol := h1.trans he
    rw [div_le_iff₀ hmd] at h2
    exact h2

/-- **C49** The step-rescaling recovery of the Newton solver can never be taken: for any guess with admissible energies before the
step the scaling factor is below one, and the code only accepts factors of one or more. -/
theorem rescale_never (xi xiMax umin Jmin u0 u1 J0 J1 : ℝ) (hx : 0 < xiMax) (hu : umin ≤ u0) (hJ : Jmin ≤ J0) :
    ¬ (Solver4.scalingFactor xi xiMax umin Jmin u0 u1 J0 J1 ≥ 1) := by
  rw [ge_iff_le, not_le]
  unfold Solver4.scalingFactor
  have a1 : xi > xiMax → xiMax / xi < 1 := fun h => by rw [div_lt_one (by linarith)]; exact h
  have a2 : u1 < umin → (u0 - umin) / (u0 - u1) < 1 := fun h => by rw [div_lt_one (by linarith)]; linarith
  have a3 : J1 < Jmin → (J0 - Jmin) / (J0 - J1) < 1 := fun h => by rw [div_lt_one (by linarith)]; linarith
  split_ifs with h1 h2 h3 h3 h2 h3 h3 <;> simp_all

/-! ### the temperature equation -/

/-- **C49** The rest-frame energy density used in the temperature search is the backward-Euler update towards thermal equilibrium,
and lies between the old and the thermal value. -/
theorem jNew_backward_euler (dtau alphaMax T : ℝ) (s : Species) (hd : 0 ≤ dtau) (hk : 0 ≤ s.kappa T) (ha : 0 ≤ alphaMax) :
    jNew dtau alphaMax T s = s.J0 + dtau * min (s.kappa T) alphaMax * (s.JBB T - jNew dtau alphaMax T s) ∧
    min s.J0 (s.JBB T) ≤ jNew dtau alphaMax T s ∧ jNew dtau alphaMax T s ≤ max s.J0 (s.JBB T) := by
  have hk' : 0 ≤ min (s.kappa T) alphaMax := le_min hk ha
  simp only [jNew]
  set k := min (s.kappa T) alphaMax
  have hdk : 0 ≤ dtau * k := mul_nonneg hd hk'
  have hpos : 0 < 1 + dtau * k := by linarith
  refine ⟨by field_simp; ring, ?_, ?_⟩
  · rw [le_div_iff₀ hpos]
    nlinarith [min_le_left s.J0 (s.JBB T), min_le_right s.J0 (s.JBB T), mul_le_mul_of_nonneg_left (min_le_right s.J0 (s.JBB T)) hdk]
  · rw [div_le_iff₀ hpos]
    nlinarith [le_max_left s.J0 (s.JBB T), le_max_right s.J0 (s.JBB T), mul_le_mul_of_nonneg_left (le_max_right s.J0 (s.JBB T)) hdk]

/-- **C49** The temperature residual vanishes exactly when gas plus radiation energy is conserved in the fluid frame, for any number of
species. -/
theorem tResidual_zero_iff (ug : ℝ → ℝ) (ug0 dtau alphaMax : ℝ) (sp : List Species) (T : ℝ) (hpos : ug0 + (sp.map fun s => s.J0).sum ≠ 0) :
    tResidual ug ug0 dtau alphaMax sp T = 0 ↔
      ug T + (sp.map fun s => jNew dtau alphaMax T s).sum = ug0 + (sp.map fun s => s.J0).sum := by
  have e : (sp.map fun s => jNew dtau alphaMax T s - s.J0).sum = (sp.map fun s => jNew dtau alphaMax T s).sum - (sp.map fun s => s.J0).sum := by
    induction sp with
    | nil => simp
    | cons x l ih =>
      simp only [List.map_cons, List.sum_cons]
      have : ∀ l : List Species, (l.map fun s => jNew dtau alphaMax T s - s.J0).sum = (l.map fun s => jNew dtau alphaMax T s).sum - (l.map fun s => s.J0).sum := by
        intro l
        induction l with
        | nil => simp
        | cons y l ih => simp only [List.map_cons, List.sum_cons]; rw [ih]; ring
      rw [this]; ring
  unfold tResidual
  rw [div_eq_zero_iff, or_iff_left hpos, e]
  constructor <;> intro h <;> linarith

/-- **C49** With temperature-independent opacities and increasing thermal energies the residual is strictly increasing, so the
temperature search has at most one solution. -/
theorem tResidual_strictMono (ug : ℝ → ℝ) (ug0 dtau alphaMax : ℝ) (sp : List Species) (hug : StrictMono ug)
    (hsp : ∀ s ∈ sp, (∃ k, 0 ≤ k ∧ ∀ T, s.kappa T = k) ∧ Monotone s.JBB) (hd : 0 ≤ dtau) (ha : 0 ≤ alphaMax)
    (hpos : 0 < ug0 + (sp.map fun s => s.J0).sum) : StrictMono (tResidual ug ug0 dtau alphaMax sp) := by
  intro T T' hT
  have hj : ∀ s ∈ sp, jNew dtau alphaMax T s ≤ jNew dtau alphaMax T' s := by
    intro s hs
    obtain ⟨⟨k, hk, hkT⟩, hB⟩ := hsp s hs
    simp only [jNew, hkT]
    have h0 : 0 ≤ dtau * min k alphaMax := mul_nonneg hd (le_min hk ha)
    have := hB hT.le
    apply div_le_div_of_nonneg_right _ (by linarith)
    nlinarith
  have hsum : ∀ l : List Species, (∀ s ∈ l, jNew dtau alphaMax T s ≤ jNew dtau alphaMax T' s) →
      (l.map fun s => jNew dtau alphaMax T s - s.J0).sum ≤ (l.map fun s => jNew dtau alphaMax T' s - s.J0).sum := by
    intro l
    induction l with
    | nil => intro _; simp
    | cons x l ih =>
      intro h
      simp only [List.map_cons, List.sum_cons]
      have := h x (by simp)
      have := ih fun s hs => h s (by simp [hs])
      linarith
  unfold tResidual
  apply div_lt_div_of_pos_right _ hpos
  have := hug hT
  have := hsum sp hj
  linarith

/-! ### the source of the four-dimensional solver -/

/-- Specification: the exchange terms of absorption (`ka`) and scattering (`ks`) per unit coordinate time, as in the
backward-Euler equations of `LinearSourceUpdate`. -/
noncomputable def exchange (G : ADM ℝ) (v : Vec) (W sdetgam ka ks JBB J : ℝ) (H : Vec) : V4 :=
  Fin.cons (G.alpha * sdetgam * (W * ka * (JBB - J) - (ka + ks) * cc v H))
    fun i => G.alpha * sdetgam * (W * ka * lower G v i * (JBB - J) - (ka + ks) * H i)

/-- **C49** In a diagonal spatial metric, with scattering equal to absorption and neither capped, the source is the exchange term. -/
theorem srcTerm_partial (G : ADM ℝ) (hdiag : ∀ i j, i ≠ j → G.gam i j = 0) (sdetgam ka JBB : ℝ) (hk : ka + ka ≤ 100000) (hk0 : 0 ≤ ka) (P R : V4) :
    srcTerm G.g4 G.alpha sdetgam ka JBB P R =
      exchange G (fun i => P i.succ / srcW G.g4 P) (srcW G.g4 P) sdetgam ka ka JBB (R 0) (fun i => R i.succ) := by
  have hcv : ∀ i, srcCovV G.g4 P (srcW G.g4 P) i = lower G (fun i => P i.succ / srcW G.g4 P) i := by
    intro i
    unfold srcCovV lower
    have h1 : ∀ j : Fin 3, j ≠ i → G.g4 i.succ j.succ * P i.succ / srcW G.g4 P = 0 := by
      intro j hj; rw [ADM.g4_ss, hdiag i j hj.symm]; simp
    have h2 : ∀ j : Fin 3, j ≠ i → P j.succ / srcW G.g4 P * G.gam i j = 0 := by
      intro j hj; rw [hdiag i j hj.symm]; simp
    rw [Finset.sum_eq_single i (fun j _ hj => h1 j hj) (by simp), Finset.sum_eq_single i (fun j _ hj => h2 j hj) (by simp), ADM.g4_ss]
    ring
  unfold srcTerm exchange
  simp only [min_eq_left hk, min_eq_left (by linarith : ka ≤ 100000), hcv, cc]
  congr 1
  · ring
  · funext i; ring

/-- **C49 fails otherwise**: with off-diagonal spatial metric components the velocity is lowered wrongly … -/
theorem srcTerm_metric_wrong : ∃ (G : ADM ℝ) (P R : V4), G.Valid ∧
    srcTerm G.g4 G.alpha 1 1 1 P R 1 ≠ exchange G (fun i => P i.succ / srcW G.g4 P) (srcW G.g4 P) 1 1 1 1 (R 0) (fun i => R i.succ) 1 := by
  refine ⟨⟨1, fun _ => 0, ![![2, 1, 0], ![1, 1, 0], ![0, 0, 1]], ![![1, -1, 0], ![-1, 2, 0], ![0, 0, 1]]⟩, ![0, 1, 0, 0], ![0, 0, 0, 0], ?_, ?_⟩
  · refine ⟨by simp, ?_, ?_, ?_⟩
    · intro i j; fin_cases i <;> fin_cases j <;> simp
    · intro i j; fin_cases i <;> fin_cases j <;> simp
    · intro i j; fin_cases i <;> fin_cases j <;> simp [Fin.sum_univ_three] <;> norm_num
  · set G : ADM ℝ := ⟨1, fun _ => 0, ![![2, 1, 0], ![1, 1, 0], ![0, 0, 1]], ![![1, -1, 0], ![-1, 2, 0], ![0, 0, 1]]⟩ with hG
    have hW : srcW G.g4 ![0, 1, 0, 0] = Real.sqrt 3 := by
      unfold srcW; congr 1; simp [Fin.sum_univ_three, hG]; norm_num
    have h3 : Real.sqrt 3 ≠ 0 := (Real.sqrt_pos.2 (by norm_num)).ne'
    have e1 : srcTerm G.g4 G.alpha 1 1 1 ![0, 1, 0, 0] ![0, 0, 0, 0] 1 = 3 := by
      have : (1 : Fin 4) = Fin.succ (0 : Fin 3) := rfl
      rw [this]
      simp only [srcTerm, Fin.cons_succ, hW, srcCovV, ADM.g4_ss, Fin.sum_univ_three]
      simp [hG]
      field_simp; norm_num
    have e2 : exchange G (fun i => (![0, 1, 0, 0] : V4) i.succ / srcW G.g4 ![0, 1, 0, 0]) (srcW G.g4 ![0, 1, 0, 0]) 1 1 1 1 ((![0, 0, 0, 0] : V4) 0)
        (fun i => (![0, 0, 0, 0] : V4) i.succ) 1 = 2 := by
      have : (1 : Fin 4) = Fin.succ (0 : Fin 3) := rfl
      rw [this]
      simp only [exchange, Fin.cons_succ, hW, lower, Fin.sum_univ_three]
      simp [hG]
      try field_simp
    rw [e1, e2]; norm_num

/-- … and scattering is ignored: two gases with the same absorption and different scattering get the same source. -/
theorem srcTerm_no_scattering (G : ADM ℝ) (P R : V4) (sdetgam ka ks JBB : ℝ) (hk : 0 < ka) (hcap : ka + ka ≤ 100000)
    (hg : 0 < sdetgam) (hal : 0 < G.alpha) (hks : ks ≠ ka) (hR : R 1 ≠ 0) (hdiag : ∀ i j, i ≠ j → G.gam i j = 0) :
    srcTerm G.g4 G.alpha sdetgam ka JBB P R ≠
      exchange G (fun i => P i.succ / srcW G.g4 P) (srcW G.g4 P) sdetgam ka ks JBB (R 0) (fun i => R i.succ) := by
  rw [srcTerm_partial G hdiag sdetgam ka JBB hcap hk.le P R]
  intro h
  have h1 := congrFun h (Fin.succ (0 : Fin 3))
  simp only [exchange, Fin.cons_succ] at h1
  have h2 : G.alpha * sdetgam ≠ 0 := (mul_pos hal hg).ne'
  have h3 := mul_left_cancel₀ h2 h1
  have h4 : (ks - ka) * R (Fin.succ (0 : Fin 3)) = 0 := by linarith
  rcases mul_eq_zero.1 h4 with h5 | h5
  · exact hks (by linarith)
  · exact hR h5

/-- the magnetic field is dropped from the fluid state handed to the solver. -/
theorem magnetic_field_dropped (b : Vec) (hb : b ≠ 0) : bprimUsed true b ≠ b := fun h => hb (by rw [← h]; rfl)

/-- a solver that succeeds: no source, identity conserved map. -/
noncomputable def exSolver : Solver4 := ⟨id, fun _ _ => (Status.success, 0), fun _ _ => 0, fun _ => 1, fun _ => 1, 1⟩

theorem exSolver_jac (P : V4) (eps large : ℝ) (he : 0 < eps) (hP' : ∀ k, P k ≠ 0) :
    exSolver.jac eps large P = some fun n k => if n = k then 1 else 0 := by
  have hb : ∀ Q, ¬ exSolver.bad Q := by intro Q h; simp [Solver4.bad, exSolver] at h
  have hr : ∀ Q n, exSolver.resid Q n = Q n - 1 := by intro Q n; simp [Solver4.resid, Solver4.S, exSolver]
  unfold Solver4.jac
  simp only [hb, exists_false, if_false, and_self, hr]
  congr 1
  funext n k
  have hh : 0 < Solver4.fdStep eps (Solver4.magMin large P) P k :=
    lt_max_of_lt_right (mul_pos he (abs_pos.2 (hP' k)))
  simp only [Solver4.bump, if_true]
  split_ifs with h
  · rw [h]
    generalize Solver4.fdStep eps (Solver4.magMin large P) P k = q at hh
    rw [div_eq_one_iff_eq (by linarith)]; ring
  · simp

/-- the solver does converge on a concrete problem (two passes allowed, starting away from the solution). -/
theorem ex_fourd : (exSolver.solve4 (1 / 100) 1000 (1 / 1000) 1 (1 / 100) 1 (fun _ => 0) 2 (fun _ => 2)).isSome = true := by
  have hj := exSolver_jac (fun _ => 2) (1 / 100) 1000 (by norm_num) (fun _ => by norm_num)
  have hinv : inverse4 (fun n k : Fin 4 => if n = k then (1:ℝ) else 0) = fun n k => if n = k then 1 else 0 := by
    funext i j
    fin_cases i <;> fin_cases j <;> simp [inverse4, det4, adjoint, minor]
  have hb : ∀ Q, ¬ exSolver.bad Q := by intro Q h; simp [Solver4.bad, exSolver] at h
  have hr : ∀ Q n, exSolver.resid Q n = Q n - 1 := by intro Q n; simp [Solver4.resid, Solver4.S, exSolver]
  have hn : exSolver.newton (fun n k => if n = k then (1:ℝ) else 0) (fun _ => 2) = fun _ => 1 := by
    funext k; simp [Solver4.newton, hr]; try norm_num
  have hp : exSolver.pass (1 / 100) 1000 (1 / 1000) 1 (fun _ => 0) (fun _ => 2) = some (fun _ => 1) := by
    unfold Solver4.pass
    rw [hj]
    simp only [hinv, hn, hb, if_false]
  have herr : exSolver.err (1 / 1000) (fun _ => 1) = 1 / 1000 := by
    simp [Solver4.err, hr, List.finRange_succ]
    try norm_num
  unfold Solver4.solve4
  rw [Solver4.loop, hp]
  simp only [herr]
  norm_num

theorem ex_fourd_total : ∃ s : Cell, total 1 (applyAll 2 true true (fun _ _ => 1) (fun _ _ => true) 0 0 1 s) 0 = 3 ∧
    (applyAll 2 true true (fun _ _ => 1) (fun _ _ => true) 0 0 1 s).fluid 0 = 0 := by
  refine ⟨⟨fun _ => 2, fun _ _ => 1⟩, ?_, ?_⟩ <;> simp [total, applyAll, applySpecies, List.range_succ] <;> norm_num

end Phoebus.MomentSource
