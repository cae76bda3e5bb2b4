import Verif.Step.Front
import Mathlib.Analysis.Asymptotics.Lemmas
import Mathlib.Analysis.Calculus.MeanValue
import Mathlib.Analysis.SpecialFunctions.Trigonometric.Deriv

/-!
# Second order (C156)

One step of the code with linear reconstruction, started from the values of a smooth profile: the density agrees with the profile carried along with the flow up to the third power of the cell
width where the profile has a slope, if the Runge-Kutta weights are those of a scheme of second order.
-/
namespace Phoebus.Step
open FluxSweep Geom Riemann Rel Carry Asymptotics Filter Topology

/-! ### Specification -/

/-- coefficient of the second derivative after a list of stages: the exact value of a scheme of second order is one half. -/
def bend (l : List ℝ) : ℝ := (l.foldl (fun a β => (β * (a.1 + 1), β * (a.2 + a.1))) ((0, 0) : ℝ × ℝ)).2

/-- **C156 (weights)**: `rk1` has coefficient 0, `rk2` and `rk3` the exact one half. -/
theorem bend_schemes : bend [1] = 0 ∧ bend [1, 1/2] = 1/2 ∧ bend [1, 1/4, 2/3] = 1/2 ∧ bend [1/2, 1] = 1/2 := by
  unfold bend
  simp only [List.foldl]
  norm_num

/-! ### Sequences -/

/-- around cell `j` the values `r` are the second-order expansion of a profile with value, slope and curvature `f0 f1 f2`, moved by `a` steps, with `b` in front of the square of the step;
`θ` is the distance of a step in cell widths. -/
def Near2 (f0 f1 f2 θ a b : ℝ) (h : ℕ → ℝ) (j : ℕ → ℤ) (r : ℕ → ℤ → ℝ) : Prop :=
  ∀ k : ℤ, (fun ν => r ν (j ν + k) - (f0 + f1 * (h ν * (k - a * θ)) + f2 * (h ν ^ 2 * ((k:ℝ) ^ 2 / 2 - a * k * θ + b * θ ^ 2)))) =O[atTop] fun ν => h ν ^ 3

theorem mc_central (d e c : ℝ) (hc : c ≠ 0) (h1 : |d - c| ≤ |c| / 5) (h2 : |e - c| ≤ |c| / 5) : Recon.mc d e (3/2) = (d + e) / 2 := by
  rw [abs_le] at h1 h2
  rcases lt_or_gt_of_ne hc with h | h
  · rw [abs_of_neg h] at h1 h2
    rw [Recon.mc_neg (by norm_num) (by linarith) (by linarith), min_eq_left]
    · ring
    · have : 4/5 * -c ≤ min (-d) (-e) := le_min (by linarith) (by linarith)
      linarith
  · rw [abs_of_pos h] at h1 h2
    rw [Recon.mc_pos (by norm_num) (by linarith) (by linarith), min_eq_left]
    have : 4/5 * c ≤ min d e := le_min (by linarith) (by linarith)
    linarith

section
variable {f0 f1 f2 θ a b : ℝ} {h : ℕ → ℝ} {j : ℕ → ℤ} {r r0 : ℕ → ℤ → ℝ}

theorem Near2.diff (hr : Near2 f0 f1 f2 θ a b h j r) (h0 : Tendsto h atTop (𝓝 0)) (k : ℤ) :
    (fun ν => r ν (j ν + k) - r ν (j ν + k - 1) - h ν * f1) =o[atTop] h := by
  have e1 := hr k
  have e2 := hr (k - 1)
  have o3 : (fun ν => h ν ^ 3) =o[atTop] h := by
    have : (fun ν => h ν ^ 3) = fun ν => h ν ^ 2 * h ν := by funext ν; ring
    rw [this]
    have ht : Tendsto (fun ν => h ν ^ 2) atTop (𝓝 0) := by simpa using h0.pow 2
    simpa using (isLittleO_one_iff ℝ).2 ht |>.mul_isBigO (isBigO_refl h atTop)
  have o2 : (fun ν => f2 * (h ν ^ 2 * ((k:ℝ) - 1/2 - a * θ))) =o[atTop] h := by
    have : (fun ν => f2 * (h ν ^ 2 * ((k:ℝ) - 1/2 - a * θ))) = fun ν => (f2 * ((k:ℝ) - 1/2 - a * θ) * h ν) * h ν := by funext ν; ring
    rw [this]
    have ht : Tendsto (fun ν => f2 * ((k:ℝ) - 1/2 - a * θ) * h ν) atTop (𝓝 0) := by simpa using h0.const_mul (f2 * ((k:ℝ) - 1/2 - a * θ))
    simpa using (isLittleO_one_iff ℝ).2 ht |>.mul_isBigO (isBigO_refl h atTop)
  have := ((e1.trans_isLittleO o3).sub (e2.trans_isLittleO o3)).add o2
  refine this.congr_left fun ν => ?_
  push_cast
  rw [show j ν + (k - 1) = j ν + k - 1 by ring]
  ring

theorem Near2.central (hr : Near2 f0 f1 f2 θ a b h j r) (h0 : Tendsto h atTop (𝓝 0)) (hp : ∀ ν, 0 < h ν) (hf : f1 ≠ 0) (k : ℤ) :
    ∀ᶠ ν in atTop, slope .linear (r ν) (j ν + k) = (r ν (j ν + k + 1) - r ν (j ν + k - 1)) / 2 := by
  have c5 : 0 < |f1| / 5 := by positivity
  have e1 := (hr.diff h0 k).bound c5
  have e2 := (hr.diff h0 (k + 1)).bound c5
  filter_upwards [e1, e2] with ν h1 h2
  unfold slope
  rw [if_neg (by simp)]
  have hpν := hp ν
  rw [Real.norm_eq_abs, Real.norm_eq_abs, abs_of_pos hpν] at h1 h2
  rw [← add_assoc, add_sub_cancel_right] at h2
  have hab : |h ν * f1| / 5 = |f1| / 5 * h ν := by rw [abs_mul, abs_of_pos hpν]; ring
  rw [mc_central _ _ (h ν * f1) (mul_ne_zero hpν.ne' hf) (by rw [hab]; exact h1) (by rw [hab]; exact h2)]
  ring

/-- a stage with linear reconstruction keeps the expansion, to third order. -/
theorem Near2.stage (hr : Near2 f0 f1 f2 θ a b h j r) (hr0 : Near2 f0 f1 f2 θ 0 0 h j r0) (h0 : Tendsto h atTop (𝓝 0)) (hp : ∀ ν, 0 < h ν) (hf : f1 ≠ 0)
    {w lam β S : ℝ} (hθ : θ = w * lam) (σ : ℕ → ℤ → ℝ) (hσ : ∀ ν i, |σ ν i| ≤ S) (r' : ℕ → ℤ → ℝ)
    (hr' : ∀ k, ∀ᶠ ν in atTop, r' ν (j ν + k) = β * (r ν (j ν + k) - lam * (sweep w (σ ν) (r ν) (slope .linear (r ν)) (j ν + k + 1) - sweep w (σ ν) (r ν) (slope .linear (r ν)) (j ν + k)))
      + (1 - β) * r0 ν (j ν + k)) :
    Near2 f0 f1 f2 θ (β * (a + 1)) (β * (b + a)) h j r' := by
  intro k
  set p : ℕ → ℤ → ℝ := fun ν k => f0 + f1 * (h ν * (k - a * θ)) + f2 * (h ν ^ 2 * ((k:ℝ) ^ 2 / 2 - a * k * θ + b * θ ^ 2)) with hpdef
  set e : ℤ → ℕ → ℝ := fun k ν => r ν (j ν + k) - p ν k with he
  have he3 : ∀ k, e k =O[atTop] fun ν => h ν ^ 3 := fun k => hr k
  have hs1 : ∀ i, (fun ν => σ ν (j ν + i)) =O[atTop] fun _ => (1:ℝ) := fun i =>
    IsBigO.of_bound S (Eventually.of_forall fun ν => by rw [norm_one, mul_one]; exact hσ ν _)
  have hs3 : ∀ i k, (fun ν => σ ν (j ν + i) * e k ν) =O[atTop] fun ν => h ν ^ 3 := fun i k => by simpa using (hs1 i).mul (he3 k)
  -- the third difference of the errors
  have hT : ∀ i k, (fun ν => σ ν (j ν + i) * (e (k + 1) ν - 3 * e k ν + 3 * e (k - 1) ν - e (k - 2) ν)) =O[atTop] fun ν => h ν ^ 3 := fun i k => by
    have := (((hs3 i (k + 1)).sub ((hs3 i k).const_mul_left 3)).add ((hs3 i (k - 1)).const_mul_left 3)).sub (hs3 i (k - 2))
    refine this.congr_left fun ν => by ring
  have total := ((((he3 k).sub ((((he3 k).sub (he3 (k - 1))).add (((((he3 (k + 1)).sub (he3 k)).sub (he3 (k - 1))).add (he3 (k - 2))).const_mul_left (1/4))).const_mul_left θ)).sub
    ((hT (k + 1) (k + 1)).const_mul_left (lam / 4))).add ((hT k k).const_mul_left (lam / 4))).const_mul_left β |>.add ((hr0 k).const_mul_left (1 - β))
  refine (total.congr' ?_ EventuallyEq.rfl)
  filter_upwards [hr' k, hr.central h0 hp hf (k - 1), hr.central h0 hp hf k, hr.central h0 hp hf (k + 1)] with ν q0 q1 q2 q3
  rw [q0]
  unfold sweep
  rw [show j ν + k + 1 - 1 = j ν + k by ring, show j ν + k - 1 = j ν + (k - 1) by ring, show j ν + k + 1 = j ν + (k + 1) by ring, q1, q2, q3]
  rw [show j ν + (k - 1) + 1 = j ν + k by ring, show j ν + (k - 1) - 1 = j ν + (k - 2) by ring, show j ν + k + 1 = j ν + (k + 1) by ring, show j ν + k - 1 = j ν + (k - 1) by ring,
    show j ν + (k + 1) + 1 = j ν + (k + 2) by ring, show j ν + (k + 1) - 1 = j ν + k by ring]
  have hre : ∀ k, r ν (j ν + k) = e k ν + p ν k := fun k => by simp only [he]; ring
  rw [hre (k - 1), hre (k - 2), hre k, hre (k + 1), hre (k + 2), show k + 1 + 1 = k + 2 by ring, show k + 1 - 1 = k by ring, show k + 1 - 2 = k - 1 by ring]
  simp only [hpdef, hθ]
  push_cast
  ring

end

/-- expansion of a smooth function. -/
theorem taylor2 {f f' f'' : ℝ → ℝ} {x f3 : ℝ} (h1 : ∀ᶠ y in 𝓝 x, HasDerivAt f (f' y) y) (h2 : ∀ᶠ y in 𝓝 x, HasDerivAt f' (f'' y) y) (h3 : HasDerivAt f'' f3 x) :
    (fun t => f (x + t) - (f x + f' x * t + f'' x * (t ^ 2 / 2))) =O[𝓝 0] fun t => t ^ 3 := by
  -- a primitive of a small function
  have prim : ∀ (n : ℕ) (F F' : ℝ → ℝ), F 0 = 0 → (∀ᶠ t in 𝓝 (0:ℝ), HasDerivAt F (F' t) t) → F' =O[𝓝 0] (fun t => t ^ n) → F =O[𝓝 0] fun t => t ^ (n + 1) := by
    intro n F F' hF0 hF hb
    obtain ⟨C, hC⟩ := hb.bound
    obtain ⟨ε, hε, hball⟩ := Metric.eventually_nhds_iff_ball.1 (hF.and hC)
    refine IsBigO.of_bound C ?_
    filter_upwards [Metric.ball_mem_nhds (0:ℝ) hε] with t ht
    have hsub : Metric.closedBall (0:ℝ) |t| ⊆ Metric.ball 0 ε := by
      intro y hy
      rw [Metric.mem_ball, dist_zero_right, Real.norm_eq_abs] at *
      rw [Metric.mem_closedBall, dist_zero_right, Real.norm_eq_abs] at hy
      exact hy.trans_lt ht
    have hC0 : 0 ≤ C * |t| ^ n := by
      have := (hball t ht).2
      rw [norm_pow, Real.norm_eq_abs t] at this
      exact (norm_nonneg _).trans this
    have := (convex_closedBall (0:ℝ) |t|).norm_image_sub_le_of_norm_hasDerivWithin_le (f := F) (f' := F') (C := C * |t| ^ n) (x := 0) (y := t)
      (fun y hy => (hball y (hsub hy)).1.hasDerivWithinAt) (fun y hy => by
        have q := (hball y (hsub hy)).2
        refine q.trans ?_
        rw [norm_pow, Real.norm_eq_abs]
        rw [Metric.mem_closedBall, dist_zero_right, Real.norm_eq_abs] at hy
        rcases le_or_gt 0 C with hc | hc
        · exact mul_le_mul_of_nonneg_left (pow_le_pow_left₀ (abs_nonneg _) hy n) hc
        · have hq : 0 ≤ C * |y| ^ n := by
            rw [norm_pow, Real.norm_eq_abs y] at q
            exact (norm_nonneg _).trans q
          have : |y| ^ n = 0 := by
            by_contra hne
            have : 0 < |y| ^ n := lt_of_le_of_ne (by positivity) (Ne.symm hne)
            nlinarith
          rw [this, mul_zero]; exact hC0)
      (by simp) (by simp)
    rw [hF0, sub_zero, sub_zero] at this
    rw [norm_pow, Real.norm_eq_abs, pow_succ, ← mul_assoc]
    simpa using this
  have sh : ∀ {g g' : ℝ → ℝ} {t : ℝ}, HasDerivAt g (g' (x + t)) (x + t) → HasDerivAt (fun s => g (x + s)) (g' (x + t)) t := fun hg => by
    simpa using hg.comp_const_add x _
  have tx : Tendsto (fun t : ℝ => x + t) (𝓝 0) (𝓝 x) := by
    have : Tendsto (fun t : ℝ => x + t) (𝓝 0) (𝓝 (x + 0)) := (continuous_const.add continuous_id).tendsto 0
    simpa using this
  have A0 : (fun t => f'' (x + t) - f'' x) =O[𝓝 0] fun t => t ^ 1 := by
    have := h3.isBigO_sub.comp_tendsto tx
    refine this.congr (fun t => rfl) fun t => by simp
  have A1 : (fun t => f' (x + t) - (f' x + f'' x * t)) =O[𝓝 0] fun t => t ^ 2 := by
    refine prim 1 _ (fun t => f'' (x + t) - f'' x) (by simp) ?_ A0
    filter_upwards [tx.eventually h2] with t ht
    have := (sh ht).sub ((hasDerivAt_const t (f' x)).add ((hasDerivAt_id t).const_mul (f'' x)))
    exact this.congr_deriv (by simp)
  refine prim 2 _ (fun t => f' (x + t) - (f' x + f'' x * t)) (by simp) ?_ A1
  filter_upwards [tx.eventually h1] with t ht
  have := (sh ht).sub (((hasDerivAt_const t (f x)).add ((hasDerivAt_id t).const_mul (f' x))).add ((((hasDerivAt_id t).pow 2).div_const 2).const_mul (f'' x)))
  refine this.congr_deriv ?_
  simp

/-! ### The step of the code -/

section
variable {c : Surround} {sol : MeshRun.Solver} {small eps : ℝ} {val : Bool} {G : ADM ℝ} {g : ℝ} {L : Limits} {m M : ℝ} {S : Fin 3 → ℝ}

/-- one stage on the undivided domain, for a sequence of meshes. -/
theorem stage_order (hB : Background c sol eps G L m M S) {f0 f1 f2 lam a b β : ℝ} {h : ℕ → ℝ} {j : ℕ → ℤ} (h0 : Tendsto h atTop (𝓝 0)) (hp : ∀ ν, 0 < h ν) (hf : f1 ≠ 0)
    (P : ℕ → Phys ℝ 11) (hP : ∀ ν, ContactStage c sol small eps val G g L m M (P ν)) (hrt : ∀ ν, (P ν).rt = .linear) (hdx : ∀ ν, (P ν).dx 0 = h ν) (hβ : ∀ ν, (P ν).beta = β)
    (hC : ∀ ν, HalfCourant 1 S (P ν) (lam * h ν)) (wrap : ℕ → Pos → Pos) (hw : ∀ k : ℤ, ∀ᶠ ν in atTop, wrap ν (line (j ν + k)) = line (j ν + k)) (base cur : ℕ → Fields ℝ 11)
    (hb : ∀ ν, IsContact c val G g m M (base ν)) (hc : ∀ ν, IsContact c val G g m M (cur ν))
    (N0 : Near2 f0 f1 f2 (G.alpha * drift G c 0 * lam) 0 0 h j fun ν => dens (base ν)) (N1 : Near2 f0 f1 f2 (G.alpha * drift G c 0 * lam) a b h j fun ν => dens (cur ν)) :
    (∀ ν, IsContact c val G g m M (refFields 1 (wrap ν) (lam * h ν) (base ν) (cur ν) (P ν))) ∧
      Near2 f0 f1 f2 (G.alpha * drift G c 0 * lam) (β * (a + 1)) (β * (b + a)) h j fun ν => dens (refFields 1 (wrap ν) (lam * h ν) (base ν) (cur ν) (P ν)) := by
  have hst := fun ν => stage_density hB (P ν) (hP ν) 1 (lam * h ν) (hC ν) (wrap ν) (base ν) (cur ν) (hb ν) (hc ν)
  choose σ hσ hst using hst
  refine ⟨fun ν p => ⟨_, hst ν p⟩, ?_⟩
  set r : ℕ → Pos → ℝ := fun ν q => (cur ν q).2 0 with hr
  have hrange : ∀ ν p, m ≤ r ν p ∧ r ν p ≤ M := by
    intro ν p
    obtain ⟨ρ, h1, h2, h3⟩ := hc ν p
    simp only [hr, h3]
    exact ⟨h1, h2⟩
  refine N1.stage N0 h0 hp hf (w := G.alpha * drift G c 0) (lam := lam) (β := β) (S := S 0) rfl
    (fun ν i => σ ν 0 (densL (P ν) (r ν) 0 (line i)) (densR (P ν) (r ν) 0 (line i))) (fun ν i => ?_) _ fun k => ?_
  · have := hσ ν 0 _ _ (kernel_edges (P ν).ew (P ν).em (P ν).rt (hP ν).recon (fun k => r ν fun e => line i e + (k - 1) * unit 0 e) m M fun k => hrange ν _).1
      (kernel_edges (P ν).ew (P ν).em (P ν).rt (hP ν).recon (fun k => r ν fun e => line i e + k * unit 0 e) m M fun k => hrange ν _).2.1
    exact (abs_of_nonneg this.1).trans_le this.2.2.1
  · filter_upwards [hw k] with ν hk
    have e := carried_line (P ν) (hP ν).recon (lam * h ν) (fun d => G.alpha * drift G c d) (σ ν) (fun q => (base ν q).2 0) (r ν) (j ν + k)
    unfold dens
    rw [(hst ν (line (j ν + k))).2.2, hk]
    show carried (P ν) 1 (lam * h ν) (fun d => G.alpha * drift G c d) (σ ν) (fun q => (base ν q).2 0) (r ν) (line (j ν + k)) = _
    rw [e, hrt, hdx, hβ, mul_div_cancel_right₀ _ (hp ν).ne']

/-- all stages of a step. -/
theorem stages_order (hB : Background c sol eps G L m M S) {f0 f1 f2 lam : ℝ} {h : ℕ → ℝ} {j : ℕ → ℤ} (h0 : Tendsto h atTop (𝓝 0)) (hp : ∀ ν, 0 < h ν) (hf : f1 ≠ 0)
    (wrap : ℕ → Pos → Pos) (hw : ∀ k : ℤ, ∀ᶠ ν in atTop, wrap ν (line (j ν + k)) = line (j ν + k)) (base : ℕ → Fields ℝ 11)
    (hb : ∀ ν, IsContact c val G g m M (base ν)) (N0 : Near2 f0 f1 f2 (G.alpha * drift G c 0 * lam) 0 0 h j fun ν => dens (base ν)) (l : List ℝ) :
    ∀ (Ps : ℕ → List (Phys ℝ 11)), (∀ ν, (Ps ν).map Phys.beta = l) →
    (∀ ν, ∀ P ∈ Ps ν, ContactStage c sol small eps val G g L m M P ∧ P.rt = .linear ∧ P.dx 0 = h ν ∧ HalfCourant 1 S P (lam * h ν)) →
    ∀ (cur : ℕ → Glob ℝ 11) (a b : ℝ), (∀ ν, IsContact c val G g m M (cur ν).1) → Near2 f0 f1 f2 (G.alpha * drift G c 0 * lam) a b h j (fun ν => dens (cur ν).1) →
      let q := l.foldl (fun a β => (β * (a.1 + 1), β * (a.2 + a.1))) (a, b)
      Near2 f0 f1 f2 (G.alpha * drift G c 0 * lam) q.1 q.2 h j fun ν => dens ((Ps ν).foldl (refStage 1 (wrap ν) (lam * h ν) (base ν)) (cur ν)).1 := by
  induction l with
  | nil =>
    intro Ps hPs _ cur a b _ hN
    have : ∀ ν, Ps ν = [] := fun ν => List.map_eq_nil_iff.1 (hPs ν)
    simpa [this] using hN
  | cons β l ih =>
    intro Ps hPs hP cur a b hc hN
    have hd : ∀ ν, ∃ P Q, Ps ν = P :: Q ∧ P.beta = β ∧ Q.map Phys.beta = l := fun ν => by
      obtain ⟨P, Q, e1, e2, e3⟩ := List.map_eq_cons_iff.1 (hPs ν)
      exact ⟨P, Q, e1, e2, e3⟩
    choose P Q e1 e2 e3 using hd
    have hm : ∀ ν, P ν ∈ Ps ν := fun ν => by rw [e1]; simp
    obtain ⟨c1, n1⟩ := stage_order hB h0 hp hf P (fun ν => (hP ν _ (hm ν)).1) (fun ν => (hP ν _ (hm ν)).2.1) (fun ν => (hP ν _ (hm ν)).2.2.1) e2
      (fun ν => (hP ν _ (hm ν)).2.2.2) wrap hw base (fun ν => (cur ν).1) hb hc N0 hN
    have := ih Q e3 (fun ν P' h' => hP ν P' (by rw [e1]; exact List.mem_cons_of_mem _ h')) (fun ν => refStage 1 (wrap ν) (lam * h ν) (base ν) (cur ν) (P ν)) _ _ c1 n1
    simpa [e1] using this

theorem fold_advance (l : List ℝ) : ∀ a b : ℝ, (l.foldl (fun a β => (β * (a.1 + 1), β * (a.2 + a.1))) ((a, b) : ℝ × ℝ)).1 = l.foldl (fun a β => β * (a + 1)) a := by
  induction l with
  | nil => intro a b; rfl
  | cons β l ih => intro a b; simp only [List.foldl_cons]; exact ih _ _

/-- **C156**: a sequence of one-dimensional meshes with cell widths `h ν` tending to zero, cut into blocks in any way, with any schedule and memory contents and any boundary conditions; `x` is the centre of cell
`j ν`, which is eventually as many cells away from the boundary as one likes.  One step of length `lam h ν`, with linear reconstruction, LLF or HLL and stage weights `l`, starting from a contact whose density around
`x` is a profile `f` that is three times differentiable and has a slope there.  Then the density of the cell is `f - A s f' + B s² f''` up to the third power of the cell width, where `s` is the
distance the matter moves and `A`, `B` the coefficients of the weights. -/
theorem step_order {B : ℕ → Type} (Gr : ∀ ν, Grid (B ν)) (gh : ℤ) (Dom : ℕ → Pos → Prop) (hT : ∀ ν, Tiles (Gr ν) 1 gh (Dom ν)) (est : Pos → (Fin 11 → ℝ) → (Fin 3 → ℝ × ℝ) → ℝ)
    (ctrl : ℕ → ℝ → Set ℝ → ℝ) (hg : 2 ≤ gh) (Ps : ℕ → List (Phys ℝ 11)) (l : List ℝ) (hl : ∀ ν, (Ps ν).map Phys.beta = l)
    (mem : ∀ ν, ℕ → ℕ → B ν → Mem ℝ 11) (ho : ∀ ν, Complete (Gr ν) (mem ν)) (hB : Background c sol eps G L m M S) {lam : ℝ} {h : ℕ → ℝ} (h0 : Tendsto h atTop (𝓝 0)) (hp : ∀ ν, 0 < h ν)
    (hP : ∀ ν, ∀ P ∈ Ps ν, ContactStage c sol small eps val G g L m M P ∧ P.rt = .linear ∧ P.dx 0 = h ν ∧ HalfCourant 1 S P (lam * h ν))
    (j : ℕ → ℤ) (hj : ∀ k : ℤ, ∀ᶠ ν in atTop, Dom ν (line (j ν + k))) {f f' f'' : ℝ → ℝ} {x f3 : ℝ}
    (h1 : ∀ᶠ y in 𝓝 x, HasDerivAt f (f' y) y) (h2 : ∀ᶠ y in 𝓝 x, HasDerivAt f' (f'' y) y) (h3 : HasDerivAt f'' f3 x) (hf : f' x ≠ 0)
    (X : ∀ ν, Mesh ℝ 11 (B ν)) (Y : ℕ → Glob ℝ 11) (hX : ∀ ν, Holds (Gr ν) (X ν) (Y ν)) (hY : ∀ ν, IsContact c val G g m M (Y ν).1)
    (hdens : ∀ k : ℤ, ∀ᶠ ν in atTop, dens (Y ν).1 (j ν + k) = f (x + k * h ν)) :
    let ρ := fun ν => meshDens (Gr ν) (run (Gr ν) est ctrl (fun _ _ => Ps ν) (mem ν) 1 (X ν, lam * h ν)).1 (j ν)
    let s := fun ν => G.alpha * drift G c 0 * (lam * h ν)
    (fun ν => ρ ν - (f x - advance l * s ν * f' x + bend l * s ν ^ 2 * f'' x)) =O[atTop] fun ν => h ν ^ 3 := by
  intro ρ s
  have hw : ∀ k : ℤ, ∀ᶠ ν in atTop, (Gr ν).wrap (line (j ν + k)) = line (j ν + k) := fun k => by
    filter_upwards [hj k] with ν hν using (hT ν).fixed _ hν
  have N0 : Near2 (f x) (f' x) (f'' x) (G.alpha * drift G c 0 * lam) 0 0 h j fun ν => dens (Y ν).1 := by
    intro k
    have tk : Tendsto (fun ν => (k:ℝ) * h ν) atTop (𝓝 0) := by simpa using h0.const_mul (k:ℝ)
    have T := (taylor2 h1 h2 h3).comp_tendsto tk
    have T' : (fun ν => f (x + k * h ν) - (f x + f' x * (k * h ν) + f'' x * ((k * h ν) ^ 2 / 2))) =O[atTop] fun ν => h ν ^ 3 := by
      refine IsBigO.trans T ?_
      have : ((fun t : ℝ => t ^ 3) ∘ fun ν => (k:ℝ) * h ν) = fun ν => (k:ℝ) ^ 3 * h ν ^ 3 := by funext ν; simp only [Function.comp]; ring
      rw [this]
      exact (isBigO_refl _ _).const_mul_left _
    refine T'.congr' ?_ EventuallyEq.rfl
    filter_upwards [hdens k] with ν hν
    rw [hν]
    ring
  have key := stages_order (small := small) hB h0 hp hf (fun ν => (Gr ν).wrap) hw (fun ν => (Y ν).1) hY N0 l Ps hl hP Y 0 0 hY N0 0
  refine key.congr' ?_ EventuallyEq.rfl
  filter_upwards [hj 0] with ν hν
  rw [add_zero] at hν ⊢
  have A := (run_holds (Gr ν) 1 gh (Dom ν) (hT ν) est ctrl (fun _ _ => Ps ν) (by omega) (fun _ _ P h' => by rw [(hP ν P h').2.1]; simpa [radius] using hg) (mem ν) (ho ν) (X ν) (Y ν)
    (lam * h ν) (hX ν) 1).1.1
  have hEn := interior_entire _ (by rw [(hT ν).ghosts]; omega) _ ((hT ν).owned _ hν)
  have e : ρ ν = dens ((Ps ν).foldl (refStage 1 (Gr ν).wrap (lam * h ν) (Y ν).1) (Y ν)).1 (j ν) := by
    simp only [ρ, meshDens]
    rw [A _ _ hEn]
    simp only [sub_add_cancel]
    rfl
  rw [e, fold_advance]
  simp only [s]
  show _ = dens _ _ - (f x - advance l * _ * f' x + bend l * _ * f'' x)
  unfold advance bend
  push_cast
  ring

/-- **C156 (second order)**: with weights of a scheme of second order the error of the step is of the third power of the cell width. -/
theorem step_second_order {B : ℕ → Type} (Gr : ∀ ν, Grid (B ν)) (gh : ℤ) (Dom : ℕ → Pos → Prop) (hT : ∀ ν, Tiles (Gr ν) 1 gh (Dom ν)) (est : Pos → (Fin 11 → ℝ) → (Fin 3 → ℝ × ℝ) → ℝ)
    (ctrl : ℕ → ℝ → Set ℝ → ℝ) (hg : 2 ≤ gh) (Ps : ℕ → List (Phys ℝ 11)) (l : List ℝ) (hl : ∀ ν, (Ps ν).map Phys.beta = l)
    (mem : ∀ ν, ℕ → ℕ → B ν → Mem ℝ 11) (ho : ∀ ν, Complete (Gr ν) (mem ν)) (hB : Background c sol eps G L m M S) {lam : ℝ} {h : ℕ → ℝ} (h0 : Tendsto h atTop (𝓝 0)) (hp : ∀ ν, 0 < h ν)
    (hP : ∀ ν, ∀ P ∈ Ps ν, ContactStage c sol small eps val G g L m M P ∧ P.rt = .linear ∧ P.dx 0 = h ν ∧ HalfCourant 1 S P (lam * h ν))
    (j : ℕ → ℤ) (hj : ∀ k : ℤ, ∀ᶠ ν in atTop, Dom ν (line (j ν + k))) {f f' f'' : ℝ → ℝ} {x f3 : ℝ}
    (h1 : ∀ᶠ y in 𝓝 x, HasDerivAt f (f' y) y) (h2 : ∀ᶠ y in 𝓝 x, HasDerivAt f' (f'' y) y) (h3 : HasDerivAt f'' f3 x) (hf : f' x ≠ 0)
    (X : ∀ ν, Mesh ℝ 11 (B ν)) (Y : ℕ → Glob ℝ 11) (hX : ∀ ν, Holds (Gr ν) (X ν) (Y ν)) (hY : ∀ ν, IsContact c val G g m M (Y ν).1)
    (hdens : ∀ k : ℤ, ∀ᶠ ν in atTop, dens (Y ν).1 (j ν + k) = f (x + k * h ν)) :
    let ρ := fun ν => meshDens (Gr ν) (run (Gr ν) est ctrl (fun _ _ => Ps ν) (mem ν) 1 (X ν, lam * h ν)).1 (j ν)
    let w := G.alpha * drift G c 0
    (advance l = 1 → bend l = 1/2 → (fun ν => ρ ν - f (x - w * (lam * h ν))) =O[atTop] fun ν => h ν ^ 3) ∧
    (advance l = 1 → Tendsto (fun ν => (ρ ν - f (x - w * (lam * h ν))) / h ν ^ 2) atTop (𝓝 ((bend l - 1/2) * (w * lam) ^ 2 * f'' x))) ∧
    Tendsto (fun ν => (ρ ν - f (x - w * (lam * h ν))) / h ν) atTop (𝓝 ((1 - advance l) * (w * lam) * f' x)) := by
  intro ρ w
  have key := step_order (small := small) Gr gh Dom hT est ctrl hg Ps l hl mem ho hB h0 hp hP j hj h1 h2 h3 hf X Y hX hY hdens
  simp only at key
  have ts : Tendsto (fun ν => -(w * (lam * h ν))) atTop (𝓝 0) := by
    have := (h0.const_mul lam).const_mul w
    simpa using this.neg
  have T := (taylor2 h1 h2 h3).comp_tendsto ts
  have T' : (fun ν => f (x - w * (lam * h ν)) - (f x - f' x * (w * (lam * h ν)) + f'' x * ((w * (lam * h ν)) ^ 2 / 2))) =O[atTop] fun ν => h ν ^ 3 := by
    have T1 : (fun ν => f (x - w * (lam * h ν)) - (f x - f' x * (w * (lam * h ν)) + f'' x * ((w * (lam * h ν)) ^ 2 / 2))) =O[atTop] fun ν => (-(w * (lam * h ν))) ^ 3 := by
      refine T.congr (fun ν => ?_) fun ν => rfl
      simp only [Function.comp]
      rw [← sub_eq_add_neg]
      ring
    refine T1.trans ?_
    have : (fun ν => (-(w * (lam * h ν))) ^ 3) = fun ν => -(w * lam) ^ 3 * h ν ^ 3 := by funext ν; ring
    rw [this]
    exact (isBigO_refl _ _).const_mul_left _
  have D : (fun ν => (ρ ν - f (x - w * (lam * h ν))) - ((1 - advance l) * (w * lam) * f' x * h ν + (bend l - 1/2) * (w * lam) ^ 2 * f'' x * h ν ^ 2)) =O[atTop] fun ν => h ν ^ 3 := by
    refine (key.sub T').congr_left fun ν => ?_
    simp only [ρ, w]
    ring
  have lim : ∀ n : ℕ, n < 3 → ∀ u : ℕ → ℝ, u =O[atTop] (fun ν => h ν ^ 3) → Tendsto (fun ν => u ν / h ν ^ n) atTop (𝓝 0) := by
    intro n hn u hu
    have : u =o[atTop] fun ν => h ν ^ n := by
      refine hu.trans_isLittleO ?_
      have e : (fun ν => h ν ^ 3) = fun ν => h ν ^ (3 - n) * h ν ^ n := by funext ν; rw [← pow_add]; congr 1; omega
      rw [e]
      have ht : Tendsto (fun ν => h ν ^ (3 - n)) atTop (𝓝 0) := by
        have := h0.pow (3 - n)
        rwa [zero_pow (by omega)] at this
      simpa using (isLittleO_one_iff ℝ).2 ht |>.mul_isBigO (isBigO_refl (fun ν => h ν ^ n) atTop)
    exact this.tendsto_div_nhds_zero
  refine ⟨fun ha hb => ?_, fun ha => ?_, ?_⟩
  · refine D.congr_left fun ν => ?_
    rw [ha, hb]; ring
  · have := (lim 2 (by norm_num) _ D).add_const ((bend l - 1/2) * (w * lam) ^ 2 * f'' x)
    rw [zero_add] at this
    refine this.congr fun ν => ?_
    have hpν := (hp ν).ne'
    rw [ha]
    field_simp
    ring
  · have := ((lim 1 (by norm_num) _ D).add_const ((1 - advance l) * (w * lam) * f' x)).add (h0.const_mul ((bend l - 1/2) * (w * lam) ^ 2 * f'' x))
    rw [zero_add, mul_zero, add_zero] at this
    refine this.congr fun ν => ?_
    have hpν := (hp ν).ne'
    field_simp
    ring

end

/-! ### Example: a sine wave moving at three fifths of the speed of light -/

/-- a smooth periodic density between 1 and 2. -/
noncomputable def wave (x : ℝ) : ℝ := 3/2 + (Real.cos (2 * Real.pi * x) + Real.sin (2 * Real.pi * x)) / 4

theorem wave_range (x : ℝ) : 1 ≤ wave x ∧ wave x ≤ 2 := by
  unfold wave
  have a := Real.neg_one_le_cos (2 * Real.pi * x)
  have b := Real.cos_le_one (2 * Real.pi * x)
  have c := Real.neg_one_le_sin (2 * Real.pi * x)
  have d := Real.sin_le_one (2 * Real.pi * x)
  constructor <;> linarith

theorem wave_deriv (y : ℝ) : HasDerivAt wave (Real.pi / 2 * (Real.cos (2 * Real.pi * y) - Real.sin (2 * Real.pi * y))) y ∧
    HasDerivAt (fun y => Real.pi / 2 * (Real.cos (2 * Real.pi * y) - Real.sin (2 * Real.pi * y))) (-(Real.pi ^ 2 * (Real.cos (2 * Real.pi * y) + Real.sin (2 * Real.pi * y)))) y ∧
    HasDerivAt (fun y => -(Real.pi ^ 2 * (Real.cos (2 * Real.pi * y) + Real.sin (2 * Real.pi * y)))) (-(Real.pi ^ 2 * (2 * Real.pi * (Real.cos (2 * Real.pi * y) - Real.sin (2 * Real.pi * y))))) y := by
  have l : HasDerivAt (fun y => 2 * Real.pi * y) (2 * Real.pi) y := by simpa using (hasDerivAt_id y).const_mul (2 * Real.pi)
  have C := l.cos
  have S := l.sin
  refine ⟨?_, ?_, ?_⟩
  · exact (((C.add S).div_const 4).const_add (3/2)).congr_deriv (by ring)
  · exact ((C.sub S).const_mul (Real.pi / 2)).congr_deriv (by ring)
  · exact (((C.add S).const_mul (Real.pi ^ 2)).neg).congr_deriv (by ring)

/-- start of the example. -/
noncomputable def waveStart (nb nx : ℕ) [NeZero nb] : Mesh ℝ 11 ((d : Fin 3) → Fin ((![nb, 1, 1] : Fin 3 → ℕ) d)) :=
  (fun i q => exSur.cell true C2P.flat 1 (wave (1 / ((nb * nx : ℕ) : ℝ) * (((q 0 + (hatGrid nb nx).off i 0 : ℤ) : ℝ) + 1/2))), fun _ _ _ => 0)

/-- **C156 (concrete)**: the unit interval in `2 ν + 1` cells, cut into blocks of equal size in any way, periodic, time steps of one twentieth of a cell.  After a step the error in the middle cell is of the third power of the
cell width with `rk2` and `rk3`; with `rk1` it is not: divided by the square of the width it tends to a nonzero number. -/
theorem ex_order (nb nx : ℕ → ℕ) [∀ ν, NeZero (nb ν)] (hN : ∀ ν, nb ν * nx ν = 2 * ν + 1) (l : List ℝ) (hl : ∀ β ∈ l, 0 ≤ β ∧ β ≤ 1) (est : Pos → (Fin 11 → ℝ) → (Fin 3 → ℝ × ℝ) → ℝ)
    (ctrl : ℕ → ℝ → Set ℝ → ℝ) (mem : ∀ ν, ℕ → ℕ → ((d : Fin 3) → Fin ((![nb ν, 1, 1] : Fin 3 → ℕ) d)) → Mem ℝ 11) (ho : ∀ ν, Complete (hatGrid (nb ν) (nx ν)) (mem ν)) :
    let h := fun ν : ℕ => 1 / (2 * (ν : ℝ) + 1)
    let ρ := fun ν => meshDens (hatGrid (nb ν) (nx ν)) (run (hatGrid (nb ν) (nx ν)) est ctrl (fun _ _ => l.map fun β => hatStage β (h ν)) (mem ν) 1 (waveStart (nb ν) (nx ν), 1/20 * h ν)).1 ν
    (l = [1, 1/2] ∨ l = [1, 1/4, 2/3] → (fun ν => ρ ν - wave (1/2 - 3/5 * (1/20 * h ν))) =O[atTop] fun ν => h ν ^ 3) ∧
    (l = [1] → Tendsto (fun ν => (ρ ν - wave (1/2 - 3/5 * (1/20 * h ν))) / h ν ^ 2) atTop (𝓝 (-(9/20000) * Real.pi ^ 2))) := by
  intro h ρ
  have hp : ∀ ν, 0 < h ν := fun ν => by positivity
  have h0 : Tendsto h atTop (𝓝 0) := by
    have : Tendsto (fun ν : ℕ => 2 * (ν : ℝ) + 1) atTop atTop :=
      tendsto_atTop_add_const_right _ _ (tendsto_natCast_atTop_atTop.const_mul_atTop (by norm_num))
    have e : h = (fun ν : ℕ => 2 * (ν : ℝ) + 1)⁻¹ := by funext ν; simp [h]
    rw [e]; exact this.inv_tendsto_atTop
  have hd : C2P.flat.alpha * drift C2P.flat exSur 0 = 3/5 := by
    unfold drift; rw [ex_lorentz]; norm_num [C2P.flat, exSur]
  have inst : ∀ ν d, NeZero ((![nb ν, 1, 1] : Fin 3 → ℕ) d) := fun ν d => by fin_cases d <;> simp <;> infer_instance
  have hxs : ∀ ν d, 0 < (![nx ν, 1, 1] : Fin 3 → ℕ) d := fun ν d => by
    have : 0 < nx ν := Nat.pos_of_ne_zero fun h => by have := hN ν; rw [h] at this; omega
    fin_cases d <;> simp [this]
  have hpos : ∀ ν d, 0 < (![nb ν, 1, 1] : Fin 3 → ℕ) d * (![nx ν, 1, 1] : Fin 3 → ℕ) d := fun ν d => Nat.mul_pos (Nat.pos_of_ne_zero (inst ν d).out) (hxs ν d)
  have TT := fun ν => @regular_tiles 1 2 ![nb ν, 1, 1] ![nx ν, 1, 1] (inst ν) (hxs ν) (fun d hd => by fin_cases d <;> simp at hd ⊢) _ (wrapPeriodic_box _ (hpos ν))
  have hNh : ∀ ν, 1 / ((nb ν * nx ν : ℕ) : ℝ) = h ν := fun ν => by rw [hN]; simp only [h]; push_cast; rfl
  have half : Real.cos (2 * Real.pi * (1/2)) = -1 ∧ Real.sin (2 * Real.pi * (1/2)) = 0 := by
    rw [show 2 * Real.pi * (1/2) = Real.pi by ring]; exact ⟨Real.cos_pi, Real.sin_pi⟩
  have key := step_second_order (small := 0) (fun ν => hatGrid (nb ν) (nx ν)) 2 _ TT est ctrl le_rfl (fun ν => l.map fun β => hatStage β (h ν)) l
    (fun ν => by rw [List.map_map]; exact (List.map_congr_left fun β _ => rfl).trans (List.map_id l)) mem ho ex_background (lam := 1/20) h0 hp
    (fun ν P hP => by
      obtain ⟨β, hβ, rfl⟩ := List.mem_map.1 hP
      refine ⟨hat_stage _ _ (hp ν) (hl β hβ), rfl, rfl, ?_⟩
      refine FrontCourant.half (hp ν) (by norm_num) ⟨by have := hp ν; positivity, ?_⟩
      rw [if_neg (by simp [hatStage, codePhys])]
      show _ ≤ h ν
      have := hp ν
      linarith)
    (fun ν => (ν : ℤ)) (fun k => by
      filter_upwards [eventually_ge_atTop k.natAbs] with ν hν d
      fin_cases d
      · simp only [line]
        have e : ((![nb ν, 1, 1] : Fin 3 → ℕ) 0 * (![nx ν, 1, 1] : Fin 3 → ℕ) 0 : ℕ) = 2 * ν + 1 := hN ν
        constructor
        · simp; omega
        · show (ν : ℤ) + k < (((![nb ν, 1, 1] : Fin 3 → ℕ) 0 * (![nx ν, 1, 1] : Fin 3 → ℕ) 0 : ℕ) : ℤ)
          rw [e]; push_cast; omega
      · simp [line]
      · simp [line])
    (x := 1/2) (Eventually.of_forall fun y => (wave_deriv y).1) (Eventually.of_forall fun y => (wave_deriv y).2.1) (wave_deriv (1/2)).2.2
    (by rw [half.1, half.2]; have := Real.pi_pos; norm_num)
    (fun ν => waveStart (nb ν) (nx ν)) (fun ν => (fun p => exSur.cell true C2P.flat 1 (wave (h ν * ((p 0 : ℝ) + 1/2))), fun _ _ => 0))
    (fun ν => ⟨fun i q _ => by simp only [waveStart]; rw [hNh], fun _ _ _ _ => rfl⟩) (fun ν p => ⟨_, (wave_range _).1, (wave_range _).2, rfl⟩)
    (fun k => Eventually.of_forall fun ν => by
      show wave _ = wave _
      congr 1
      simp only [line, h]
      push_cast
      have : (0:ℝ) < 2 * (ν : ℝ) + 1 := by positivity
      field_simp
      ring)
  simp only [hd] at key
  obtain ⟨k1, k2, -⟩ := key
  refine ⟨fun hl => ?_, fun hl => ?_⟩
  · rcases hl with rfl | rfl
    · exact k1 advance_schemes.2.1 bend_schemes.2.1
    · exact k1 advance_schemes.2.2.1 bend_schemes.2.2.1
  · subst hl
    have := k2 advance_schemes.1
    rw [bend_schemes.1, half.1, half.2] at this
    convert this using 2
    ring

end Phoebus.Step
