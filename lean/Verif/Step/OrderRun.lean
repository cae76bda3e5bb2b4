import Verif.Step.HighRun

/-!
# Second order over several steps (C161)

Any fixed number of steps of the code with linear reconstruction, every step of the length the code chooses itself.
-/
namespace Phoebus.Step
open FluxSweep Geom Riemann Rel Carry Asymptotics Filter Topology

/-- around cell `j` the values `r` are the expansion to second order of a profile, moved with the coefficients `a b`, which may differ from mesh to mesh. -/
structure Shifted (f0 f1 f2 : ℝ) (a b : ℕ → ℝ) (h : ℕ → ℝ) (j : ℕ → ℤ) (r : ℕ → ℤ → ℝ) : Prop where
  ba : Bd a
  near : ∀ k : ℤ, (fun ν => r ν (j ν + k) - (f0 + f1 * (h ν * (k - a ν)) + f2 * (h ν ^ 2 * ((k:ℝ) ^ 2 / 2 - a ν * k + b ν)))) =O[atTop] fun ν => h ν ^ 3

section
variable {f0 f1 f2 : ℝ} {a b a0 b0 : ℕ → ℝ} {h : ℕ → ℝ} {j : ℕ → ℤ} {r r0 : ℕ → ℤ → ℝ}

theorem Shifted.diff (hr : Shifted f0 f1 f2 a b h j r) (h0 : Tendsto h atTop (𝓝 0)) (k : ℤ) :
    (fun ν => r ν (j ν + k) - r ν (j ν + k - 1) - h ν * f1) =o[atTop] h := by
  have e1 := hr.near k
  have e2 := hr.near (k - 1)
  have o3 : (fun ν => h ν ^ 3) =o[atTop] h := by
    have : (fun ν => h ν ^ 3) = fun ν => h ν ^ 2 * h ν := by funext ν; ring
    rw [this]
    have ht : Tendsto (fun ν => h ν ^ 2) atTop (𝓝 0) := by simpa using h0.pow 2
    simpa using (isLittleO_one_iff ℝ).2 ht |>.mul_isBigO (isBigO_refl h atTop)
  have bd : Bd fun ν => f2 * ((k:ℝ) - 1/2 + -1 * a ν) := (Bd.const f2).mul ((Bd.const _).add ((Bd.const (-1)).mul hr.ba))
  have o2 : (fun ν => f2 * (h ν ^ 2 * ((k:ℝ) - 1/2 - a ν))) =o[atTop] h := by
    have : (fun ν => f2 * (h ν ^ 2 * ((k:ℝ) - 1/2 - a ν))) = fun ν => (f2 * ((k:ℝ) - 1/2 + -1 * a ν)) * h ν * h ν := by funext ν; ring
    rw [this]
    have hs : (fun ν => (f2 * ((k:ℝ) - 1/2 + -1 * a ν)) * h ν) =O[atTop] h := by
      simpa using bd.bigO.mul (isBigO_refl h atTop)
    simpa using (isLittleO_one_iff ℝ).2 (hs.trans_tendsto h0) |>.mul_isBigO (isBigO_refl h atTop)
  have := ((e1.trans_isLittleO o3).sub (e2.trans_isLittleO o3)).add o2
  refine this.congr_left fun ν => ?_
  push_cast
  rw [show j ν + (k - 1) = j ν + k - 1 by ring]
  ring

theorem Shifted.central (hr : Shifted f0 f1 f2 a b h j r) (h0 : Tendsto h atTop (𝓝 0)) (hp : ∀ ν, 0 < h ν) (hf : f1 ≠ 0) (k : ℤ) :
    ∀ᶠ ν in atTop, slope .linear (r ν) (j ν + k) = (r ν (j ν + k + 1) - r ν (j ν + k - 1)) / 2 := by
  have c5 : 0 < |f1| / 5 := by positivity
  have e1 := (hr.diff h0 k).bound c5
  have e2 := (hr.diff h0 (k + 1)).bound c5
  filter_upwards [e1, e2] with ν h1 h2
  unfold slope
  rw [if_neg (by simp)]
  have hpν := hp ν
  rw [Real.norm_eq_abs, Real.norm_eq_abs, abs_of_pos hpν] at h1 h2
  rw [← add_assoc, add_sub_cancel_right] at h2
  have hab : |h ν * f1| / 5 = |f1| / 5 * h ν := by rw [abs_mul, abs_of_pos hpν]; ring
  rw [mc_central _ _ (h ν * f1) (mul_ne_zero hpν.ne' hf) (by rw [hab]; exact h1) (by rw [hab]; exact h2)]
  ring

/-- a stage with linear reconstruction keeps the expansion, to third order. -/
theorem Shifted.stage {θ : ℕ → ℝ} (hθ : Bd θ) (hr : Shifted f0 f1 f2 a b h j r) (hr0 : Shifted f0 f1 f2 a0 b0 h j r0) (h0 : Tendsto h atTop (𝓝 0)) (hp : ∀ ν, 0 < h ν) (hf : f1 ≠ 0)
    {w β : ℝ} {lam : ℕ → ℝ} (hw : ∀ ν, θ ν = w * lam ν) (σ : ℕ → ℤ → ℝ) {D : ℝ} (hσ : ∀ ν i, |lam ν * σ ν i| ≤ D) (r' : ℕ → ℤ → ℝ)
    (hr' : ∀ k, ∀ᶠ ν in atTop, r' ν (j ν + k) = β * (r ν (j ν + k) - lam ν * (sweep w (σ ν) (r ν) (slope .linear (r ν)) (j ν + k + 1) - sweep w (σ ν) (r ν) (slope .linear (r ν)) (j ν + k)))
      + (1 - β) * r0 ν (j ν + k)) :
    Shifted f0 f1 f2 (fun ν => β * (a ν + θ ν) + (1 - β) * a0 ν) (fun ν => β * (b ν + a ν * θ ν) + (1 - β) * b0 ν) h j r' := by
  refine ⟨((Bd.const β).mul (hr.ba.add hθ)).add ((Bd.const (1 - β)).mul hr0.ba), fun k => ?_⟩
  set p : ℕ → ℤ → ℝ := fun ν k => f0 + f1 * (h ν * (k - a ν)) + f2 * (h ν ^ 2 * ((k:ℝ) ^ 2 / 2 - a ν * k + b ν)) with hpdef
  set e : ℤ → ℕ → ℝ := fun k ν => r ν (j ν + k) - p ν k with he
  have he3 : ∀ k, e k =O[atTop] fun ν => h ν ^ 3 := fun k => hr.near k
  have hs1 : ∀ i, (fun ν => lam ν * σ ν (j ν + i)) =O[atTop] fun _ => (1:ℝ) := fun i =>
    IsBigO.of_bound D (Eventually.of_forall fun ν => by rw [norm_one, mul_one]; exact hσ ν _)
  have hs3 : ∀ i k, (fun ν => lam ν * σ ν (j ν + i) * e k ν) =O[atTop] fun ν => h ν ^ 3 := fun i k => by simpa using (hs1 i).mul (he3 k)
  have hθ3 : ∀ k, (fun ν => θ ν * e k ν) =O[atTop] fun ν => h ν ^ 3 := fun k => by simpa using hθ.bigO.mul (he3 k)
  -- the third difference of the errors
  have hT : ∀ i k, (fun ν => lam ν * σ ν (j ν + i) * (e (k + 1) ν - 3 * e k ν + 3 * e (k - 1) ν - e (k - 2) ν)) =O[atTop] fun ν => h ν ^ 3 := fun i k => by
    have := (((hs3 i (k + 1)).sub ((hs3 i k).const_mul_left 3)).add ((hs3 i (k - 1)).const_mul_left 3)).sub (hs3 i (k - 2))
    refine this.congr_left fun ν => by ring
  have total := ((((he3 k).sub (((hθ3 k).sub (hθ3 (k - 1))).add (((((hθ3 (k + 1)).sub (hθ3 k)).sub (hθ3 (k - 1))).add (hθ3 (k - 2))).const_mul_left (1/4)))).sub
    ((hT (k + 1) (k + 1)).const_mul_left (1 / 4))).add ((hT k k).const_mul_left (1 / 4))).const_mul_left β |>.add ((hr0.near k).const_mul_left (1 - β))
  refine (total.congr' ?_ EventuallyEq.rfl)
  filter_upwards [hr' k, hr.central h0 hp hf (k - 1), hr.central h0 hp hf k, hr.central h0 hp hf (k + 1)] with ν q0 q1 q2 q3
  rw [q0]
  unfold sweep
  rw [show j ν + k + 1 - 1 = j ν + k by ring, show j ν + k - 1 = j ν + (k - 1) by ring, show j ν + k + 1 = j ν + (k + 1) by ring, q1, q2, q3]
  rw [show j ν + (k - 1) + 1 = j ν + k by ring, show j ν + (k - 1) - 1 = j ν + (k - 2) by ring, show j ν + k + 1 = j ν + (k + 1) by ring, show j ν + k - 1 = j ν + (k - 1) by ring,
    show j ν + (k + 1) + 1 = j ν + (k + 2) by ring, show j ν + (k + 1) - 1 = j ν + k by ring]
  have hre : ∀ k, r ν (j ν + k) = e k ν + p ν k := fun k => by simp only [he]; ring
  rw [hre (k - 1), hre (k - 2), hre k, hre (k + 1), hre (k + 2), show k + 1 + 1 = k + 2 by ring, show k + 1 - 1 = k by ring, show k + 1 - 2 = k - 1 by ring]
  simp only [hpdef, hw]
  push_cast
  ring

end

/-! ### The step of the code -/

section
variable {c : Surround} {sol : MeshRun.Solver} {small eps : ℝ} {val : Bool} {G : ADM ℝ} {g : ℝ} {L : Limits} {m M : ℝ} {S : Fin 3 → ℝ}

/-- one stage on the undivided domain, for a sequence of meshes with steps of lengths `dt ν`. -/
theorem stage_shifted (hB : Background c sol eps G L m M S) {f0 f1 f2 β : ℝ} {a b a0 b0 dt h : ℕ → ℝ} {j : ℕ → ℤ} (h0 : Tendsto h atTop (𝓝 0)) (hp : ∀ ν, 0 < h ν) (hf : f1 ≠ 0)
    (P : ℕ → Phys ℝ 11) (hP : ∀ ν, ContactStage c sol small eps val G g L m M (P ν)) (hrt : ∀ ν, (P ν).rt = .linear) (hdx : ∀ ν, (P ν).dx 0 = h ν) (hβ : ∀ ν, (P ν).beta = β)
    (hC : ∀ ν, HalfCourant 1 S (P ν) (dt ν)) (wrap : ℕ → Pos → Pos) (hw : ∀ k : ℤ, ∀ᶠ ν in atTop, wrap ν (line (j ν + k)) = line (j ν + k)) (base cur : ℕ → Fields ℝ 11)
    (hb : ∀ ν, IsContact c val G g m M (base ν)) (hc : ∀ ν, IsContact c val G g m M (cur ν))
    (N0 : Shifted f0 f1 f2 a0 b0 h j fun ν => dens (base ν)) (N1 : Shifted f0 f1 f2 a b h j fun ν => dens (cur ν)) :
    (∀ ν, IsContact c val G g m M (refFields 1 (wrap ν) (dt ν) (base ν) (cur ν) (P ν))) ∧
      Shifted f0 f1 f2 (fun ν => β * (a ν + G.alpha * drift G c 0 * (dt ν / h ν)) + (1 - β) * a0 ν) (fun ν => β * (b ν + a ν * (G.alpha * drift G c 0 * (dt ν / h ν))) + (1 - β) * b0 ν) h j
        fun ν => dens (refFields 1 (wrap ν) (dt ν) (base ν) (cur ν) (P ν)) := by
  have hst := fun ν => stage_density hB (P ν) (hP ν) 1 (dt ν) (hC ν) (wrap ν) (base ν) (cur ν) (hb ν) (hc ν)
  choose σ hσ hst using hst
  refine ⟨fun ν p => ⟨_, hst ν p⟩, ?_⟩
  set r : ℕ → Pos → ℝ := fun ν q => (cur ν q).2 0 with hr
  have hrange : ∀ ν p, m ≤ r ν p ∧ r ν p ≤ M := by
    intro ν p
    obtain ⟨ρ, h1, h2, h3⟩ := hc ν p
    simp only [hr, h3]
    exact ⟨h1, h2⟩
  have hl0 : ∀ ν, 0 ≤ dt ν / h ν := fun ν => div_nonneg (hC ν).1 (hp ν).le
  have hl1 : ∀ ν, dt ν / h ν * S 0 ≤ 1/2 := fun ν => by
    have := (hC ν).2
    rw [Fin.sum_univ_three, if_pos (by decide), if_neg (by decide), if_neg (by decide), hdx] at this
    have e : 2 * dt ν * (S 0 / h ν + 0 + 0) = 2 * (dt ν / h ν * S 0) := by ring
    linarith
  have hs : ∀ ν i, let s := σ ν 0 (densL (P ν) (r ν) 0 (line i)) (densR (P ν) (r ν) 0 (line i))
      0 ≤ s ∧ 0 ≤ G.alpha * drift G c 0 + s ∧ s ≤ S 0 ∧ G.alpha * drift G c 0 + s ≤ S 0 := fun ν i =>
    hσ ν 0 _ _ (kernel_edges (P ν).ew (P ν).em (P ν).rt (hP ν).recon (fun k => r ν fun e => line i e + (k - 1) * unit 0 e) m M fun k => hrange ν _).1
      (kernel_edges (P ν).ew (P ν).em (P ν).rt (hP ν).recon (fun k => r ν fun e => line i e + k * unit 0 e) m M fun k => hrange ν _).2.1
  have hbd : Bd fun ν => G.alpha * drift G c 0 * (dt ν / h ν) := ⟨1/2, fun ν => by
    obtain ⟨u1, u2, u3, u4⟩ := hs ν 0
    have u : |G.alpha * drift G c 0| ≤ S 0 := abs_le.2 ⟨by linarith, by linarith⟩
    rw [abs_mul, abs_of_nonneg (hl0 ν), mul_comm]
    exact (mul_le_mul_of_nonneg_left u (hl0 ν)).trans (hl1 ν)⟩
  refine N1.stage hbd N0 h0 hp hf (w := G.alpha * drift G c 0) (lam := fun ν => dt ν / h ν) (β := β) (D := 1/2) (fun _ => rfl)
    (fun ν i => σ ν 0 (densL (P ν) (r ν) 0 (line i)) (densR (P ν) (r ν) 0 (line i))) (fun ν i => ?_) _ fun k => ?_
  · obtain ⟨u1, u2, u3, u4⟩ := hs ν i
    rw [abs_of_nonneg (mul_nonneg (hl0 ν) u1)]
    exact (mul_le_mul_of_nonneg_left u3 (hl0 ν)).trans (hl1 ν)
  · filter_upwards [hw k] with ν hk
    have e := carried_line (P ν) (hP ν).recon (dt ν) (fun d => G.alpha * drift G c d) (σ ν) (fun q => (base ν q).2 0) (r ν) (j ν + k)
    unfold dens
    rw [(hst ν (line (j ν + k))).2.2, hk]
    show carried (P ν) 1 (dt ν) (fun d => G.alpha * drift G c d) (σ ν) (fun q => (base ν q).2 0) (r ν) (line (j ν + k)) = _
    rw [e, hrt, hdx, hβ]

/-- all stages of a step: `x y` are the coefficients of the stages within the step, relative to those of its start. -/
theorem stages_shifted (hB : Background c sol eps G L m M S) {f0 f1 f2 : ℝ} {a0 b0 dt h : ℕ → ℝ} {j : ℕ → ℤ} (h0 : Tendsto h atTop (𝓝 0)) (hp : ∀ ν, 0 < h ν) (hf : f1 ≠ 0)
    (wrap : ℕ → Pos → Pos) (hw : ∀ k : ℤ, ∀ᶠ ν in atTop, wrap ν (line (j ν + k)) = line (j ν + k)) (base : ℕ → Fields ℝ 11)
    (hb : ∀ ν, IsContact c val G g m M (base ν)) (N0 : Shifted f0 f1 f2 a0 b0 h j fun ν => dens (base ν)) (θ : ℕ → ℝ) (hθ : ∀ ν, θ ν = G.alpha * drift G c 0 * (dt ν / h ν)) (l : List ℝ) :
    ∀ (Ps : ℕ → List (Phys ℝ 11)), (∀ ν, (Ps ν).map Phys.beta = l) →
    (∀ ν, ∀ P ∈ Ps ν, ContactStage c sol small eps val G g L m M P ∧ P.rt = .linear ∧ P.dx 0 = h ν ∧ HalfCourant 1 S P (dt ν)) →
    ∀ (cur : ℕ → Glob ℝ 11) (x y : ℝ), (∀ ν, IsContact c val G g m M (cur ν).1) →
      Shifted f0 f1 f2 (fun ν => a0 ν + x * θ ν) (fun ν => b0 ν + x * a0 ν * θ ν + y * θ ν ^ 2) h j (fun ν => dens (cur ν).1) →
      let q := l.foldl (fun a β => (β * (a.1 + 1), β * (a.2 + a.1))) (x, y)
      (∀ ν, IsContact c val G g m M ((Ps ν).foldl (refStage 1 (wrap ν) (dt ν) (base ν)) (cur ν)).1) ∧
      Shifted f0 f1 f2 (fun ν => a0 ν + q.1 * θ ν) (fun ν => b0 ν + q.1 * a0 ν * θ ν + q.2 * θ ν ^ 2) h j fun ν => dens ((Ps ν).foldl (refStage 1 (wrap ν) (dt ν) (base ν)) (cur ν)).1 := by
  induction l with
  | nil =>
    intro Ps hPs _ cur x y hc hN
    have : ∀ ν, Ps ν = [] := fun ν => List.map_eq_nil_iff.1 (hPs ν)
    simpa [this] using ⟨hc, hN⟩
  | cons β l ih =>
    intro Ps hPs hP cur x y hc hN
    have hd : ∀ ν, ∃ P Q, Ps ν = P :: Q ∧ P.beta = β ∧ Q.map Phys.beta = l := fun ν => by
      obtain ⟨P, Q, e1, e2, e3⟩ := List.map_eq_cons_iff.1 (hPs ν)
      exact ⟨P, Q, e1, e2, e3⟩
    choose P Q e1 e2 e3 using hd
    have hm : ∀ ν, P ν ∈ Ps ν := fun ν => by rw [e1]; simp
    obtain ⟨c1, n1⟩ := stage_shifted hB h0 hp hf P (fun ν => (hP ν _ (hm ν)).1) (fun ν => (hP ν _ (hm ν)).2.1) (fun ν => (hP ν _ (hm ν)).2.2.1) e2
      (fun ν => (hP ν _ (hm ν)).2.2.2) wrap hw base (fun ν => (cur ν).1) hb hc N0 hN
    have n2 : Shifted f0 f1 f2 (fun ν => a0 ν + β * (x + 1) * θ ν) (fun ν => b0 ν + β * (x + 1) * a0 ν * θ ν + β * (y + x) * θ ν ^ 2) h j
        (fun ν => dens (refStage 1 (wrap ν) (dt ν) (base ν) (cur ν) (P ν)).1) := by
      convert n1 using 1
      · funext ν; simp only [hθ]; ring
      · funext ν; simp only [hθ]; ring
      · rfl
    have := ih Q e3 (fun ν P' h' => hP ν P' (by rw [e1]; exact List.mem_cons_of_mem _ h')) (fun ν => refStage 1 (wrap ν) (dt ν) (base ν) (cur ν) (P ν)) _ _ c1 n2
    simpa [e1] using this

/-- the undivided run: after `n` steps the density is the expansion of the profile moved by the time elapsed. -/
theorem refRun_shifted (hB : Background c sol eps G L m M S) {f0 f1 f2 : ℝ} {h : ℕ → ℝ} {j : ℕ → ℤ} (h0 : Tendsto h atTop (𝓝 0)) (hp : ∀ ν, 0 < h ν) (hf : f1 ≠ 0)
    (Dom : ℕ → Pos → Prop) (wrap : ℕ → Pos → Pos) (hw : ∀ k : ℤ, ∀ᶠ ν in atTop, wrap ν (line (j ν + k)) = line (j ν + k))
    (est : ℕ → Pos → (Fin 11 → ℝ) → (Fin 3 → ℝ × ℝ) → ℝ) (ctrl : ℕ → ℕ → ℝ → Set ℝ → ℝ) (prog : ℕ → ℕ → ℝ → List (Phys ℝ 11)) (l : List ℝ) (hl : ∀ ν k dt, (prog ν k dt).map Phys.beta = l)
    (ha : advance l = 1) (Y : ℕ → Glob ℝ 11) (dt0 : ℕ → ℝ) (hY : ∀ ν, IsContact c val G g m M (Y ν).1)
    (N0 : Shifted f0 f1 f2 (fun _ => 0) (fun _ => 0) h j fun ν => dens (Y ν).1) (n : ℕ)
    (hP : ∀ ν k, k < n → let dt := (refRun 1 (Dom ν) (wrap ν) (est ν) (ctrl ν) (prog ν) k (Y ν, dt0 ν)).2
      ∀ P ∈ prog ν k dt, ContactStage c sol small eps val G g L m M P ∧ P.rt = .linear ∧ P.dx 0 = h ν ∧ HalfCourant 1 S P dt) :
    let R := fun ν k => refRun 1 (Dom ν) (wrap ν) (est ν) (ctrl ν) (prog ν) k (Y ν, dt0 ν)
    let T := fun ν => ∑ k ∈ Finset.range n, G.alpha * drift G c 0 * ((R ν k).2 / h ν)
    (∀ ν, IsContact c val G g m M (R ν n).1.1) ∧
      Shifted f0 f1 f2 T (fun ν => T ν ^ 2 / 2 + (bend l - 1/2) * ∑ k ∈ Finset.range n, (G.alpha * drift G c 0 * ((R ν k).2 / h ν)) ^ 2) h j fun ν => dens (R ν n).1.1 := by
  induction n with
  | zero =>
    intro R T
    simp only [T, R, Finset.range_zero, Finset.sum_empty, mul_zero, refRun]
    refine ⟨hY, ?_⟩
    convert N0 using 2; norm_num
  | succ n ih =>
    intro R T
    obtain ⟨c1, n1⟩ := ih fun ν k hk => hP ν k (by omega)
    set θ : ℕ → ℝ := fun ν => G.alpha * drift G c 0 * ((R ν n).2 / h ν) with hθ
    set T0 : ℕ → ℝ := fun ν => ∑ k ∈ Finset.range n, G.alpha * drift G c 0 * ((R ν k).2 / h ν) with hT0
    have f1' : (l.foldl (fun a β => (β * (a.1 + 1), β * (a.2 + a.1))) ((0, 0) : ℝ × ℝ)).1 = 1 := by rw [fold_advance]; exact ha
    have f2' : (l.foldl (fun a β => (β * (a.1 + 1), β * (a.2 + a.1))) ((0, 0) : ℝ × ℝ)).2 = bend l := rfl
    have key := stages_shifted (small := small) (val := val) (g := g) (dt := fun ν => (R ν n).2) hB h0 hp hf wrap hw (fun ν => (R ν n).1.1) c1 n1 θ (fun _ => rfl) l (fun ν => prog ν n (R ν n).2) (fun ν => hl ν _ _)
      (fun ν P hPm => hP ν n (Nat.lt_succ_self n) P hPm) (fun ν => (R ν n).1) 0 0 c1 (by simpa using n1)
    simp only [f1', f2'] at key
    refine ⟨key.1, ?_⟩
    convert key.2 using 1
    · funext ν
      simp only [T, Finset.sum_range_succ, hT0, hθ]; ring
    · funext ν
      simp only [T, Finset.sum_range_succ, hT0, hθ]; ring
    · rfl

/-- **C161 (linear reconstruction)**: a sequence of one-dimensional meshes with cell widths `h ν` tending to zero, cut into blocks in any way, with any schedule and memory contents and any boundary conditions; `x` is
the centre of cell `j ν`, which is eventually as many cells away from the boundary as one likes.  The code starts from a contact whose density around `x` is a profile `f` that is three times differentiable and has a
slope there, and makes `n` steps with linear reconstruction, LLF or HLL and consistent stage weights `l`; the lengths `dt ν k` of the steps are those the code's own controller chooses, as long as they obey the Courant
condition with number one half.  Then the density of the cell is that of the profile carried along for the time elapsed, `f (x - w Σ dt)`, plus, if the weights are not of second order, the sum over the steps of the
error of the second derivative, up to the third power of the cell width. -/
theorem run_order {B : ℕ → Type} (Gr : ∀ ν, Grid (B ν)) (gh : ℤ) (Dom : ℕ → Pos → Prop) (hT : ∀ ν, Tiles (Gr ν) 1 gh (Dom ν)) (est : ℕ → Pos → (Fin 11 → ℝ) → (Fin 3 → ℝ × ℝ) → ℝ)
    (ctrl : ℕ → ℕ → ℝ → Set ℝ → ℝ) (hg : 2 ≤ gh) (prog : ℕ → ℕ → ℝ → List (Phys ℝ 11)) (l : List ℝ) (hl : ∀ ν k dt, (prog ν k dt).map Phys.beta = l) (ha : advance l = 1)
    (mem : ∀ ν, ℕ → ℕ → B ν → Mem ℝ 11) (ho : ∀ ν, Complete (Gr ν) (mem ν)) (hB : Background c sol eps G L m M S) (hmet : ∀ ν k dt, ∀ P ∈ prog ν k dt, P.rt = .linear)
    {h : ℕ → ℝ} (h0 : Tendsto h atTop (𝓝 0)) (hp : ∀ ν, 0 < h ν)
    (j : ℕ → ℤ) (hj : ∀ k : ℤ, ∀ᶠ ν in atTop, Dom ν (line (j ν + k))) {f f' f'' : ℝ → ℝ} {x f3 : ℝ}
    (h1 : ∀ᶠ y in 𝓝 x, HasDerivAt f (f' y) y) (h2 : ∀ᶠ y in 𝓝 x, HasDerivAt f' (f'' y) y) (h3 : HasDerivAt f'' f3 x) (hf : f' x ≠ 0)
    (X : ∀ ν, Mesh ℝ 11 (B ν)) (Y : ℕ → Glob ℝ 11) (hX : ∀ ν, Holds (Gr ν) (X ν) (Y ν)) (hY : ∀ ν, IsContact c val G g m M (Y ν).1) (dt0 : ℕ → ℝ) (n : ℕ)
    (hP : ∀ ν k, k < n → let dt := (run (Gr ν) (est ν) (ctrl ν) (prog ν) (mem ν) k (X ν, dt0 ν)).2
      ∀ P ∈ prog ν k dt, ContactStage c sol small eps val G g L m M P ∧ P.rt = .linear ∧ P.dx 0 = h ν ∧ HalfCourant 1 S P dt)
    (hdens : ∀ k : ℤ, ∀ᶠ ν in atTop, dens (Y ν).1 (j ν + k) = f (x + k * h ν)) :
    let ρ := fun ν => meshDens (Gr ν) (run (Gr ν) (est ν) (ctrl ν) (prog ν) (mem ν) n (X ν, dt0 ν)).1 (j ν)
    let dt := fun ν k => (run (Gr ν) (est ν) (ctrl ν) (prog ν) (mem ν) k (X ν, dt0 ν)).2
    let w := G.alpha * drift G c 0
    (fun ν => ρ ν - (f (x - w * ∑ k ∈ Finset.range n, dt ν k) + (bend l - 1/2) * (∑ k ∈ Finset.range n, (w * dt ν k) ^ 2) * f'' x)) =O[atTop] fun ν => h ν ^ 3 := by
  intro ρ dt w
  have hw : ∀ k : ℤ, ∀ᶠ ν in atTop, (Gr ν).wrap (line (j ν + k)) = line (j ν + k) := fun k => by
    filter_upwards [hj k] with ν hν using (hT ν).fixed _ hν
  have N0 : Shifted (f x) (f' x) (f'' x) (fun _ => 0) (fun _ => 0) h j fun ν => dens (Y ν).1 := by
    refine ⟨Bd.const 0, fun k => ?_⟩
    have tk : Tendsto (fun ν => (k:ℝ) * h ν) atTop (𝓝 0) := by simpa using h0.const_mul (k:ℝ)
    have T := (taylor2 h1 h2 h3).comp_tendsto tk
    have T' : (fun ν => f (x + k * h ν) - (f x + f' x * (k * h ν) + f'' x * ((k * h ν) ^ 2 / 2))) =O[atTop] fun ν => h ν ^ 3 := by
      refine IsBigO.trans T ?_
      have : ((fun t : ℝ => t ^ 3) ∘ fun ν => (k:ℝ) * h ν) = fun ν => (k:ℝ) ^ 3 * h ν ^ 3 := by funext ν; simp only [Function.comp]; ring
      rw [this]
      exact (isBigO_refl _ _).const_mul_left _
    refine T'.congr' ?_ EventuallyEq.rfl
    filter_upwards [hdens k] with ν hν
    rw [hν]
    ring
  have A := fun ν => run_holds (Gr ν) 1 gh (Dom ν) (hT ν) (est ν) (ctrl ν) (prog ν) (by omega) (fun k d P h' => by
    rw [hmet ν k d P h']
    simpa [radius] using hg) (mem ν) (ho ν) (X ν) (Y ν) (dt0 ν) (hX ν)
  have hdt : ∀ ν k, (refRun 1 (Dom ν) (Gr ν).wrap (est ν) (ctrl ν) (prog ν) k (Y ν, dt0 ν)).2 = dt ν k := fun ν k => (A ν k).2.symm
  have key := (refRun_shifted (small := small) hB h0 hp hf Dom (fun ν => (Gr ν).wrap) hw est ctrl prog l hl ha Y dt0 hY N0 n fun ν k hk => by
    simp only [hdt]; exact hP ν k hk).2
  simp only [hdt] at key
  set T : ℕ → ℝ := fun ν => ∑ k ∈ Finset.range n, w * (dt ν k / h ν) with hTd
  have eT : ∀ ν, w * ∑ k ∈ Finset.range n, dt ν k = T ν * h ν := fun ν => by
    simp only [hTd, Finset.mul_sum, Finset.sum_mul]
    refine Finset.sum_congr rfl fun k _ => ?_
    have := (hp ν).ne'
    field_simp
  have eC : ∀ ν, ∑ k ∈ Finset.range n, (w * dt ν k) ^ 2 = (∑ k ∈ Finset.range n, (w * (dt ν k / h ν)) ^ 2) * h ν ^ 2 := fun ν => by
    rw [Finset.sum_mul]
    refine Finset.sum_congr rfl fun k _ => ?_
    have := (hp ν).ne'
    field_simp
  have bT : Bd T := key.ba
  have sT : (fun ν => -(T ν * h ν)) =O[atTop] h := by
    have := (bT.bigO.mul (isBigO_refl h atTop)).neg_left
    simpa using this
  have ts : Tendsto (fun ν => -(T ν * h ν)) atTop (𝓝 0) := sT.trans_tendsto h0
  have T3 := (taylor2 h1 h2 h3).comp_tendsto ts
  have T' : (fun ν => f (x - T ν * h ν) - (f x - f' x * (T ν * h ν) + f'' x * ((T ν * h ν) ^ 2 / 2))) =O[atTop] fun ν => h ν ^ 3 := by
    have T1 : (fun ν => f (x - T ν * h ν) - (f x - f' x * (T ν * h ν) + f'' x * ((T ν * h ν) ^ 2 / 2))) =O[atTop] fun ν => (-(T ν * h ν)) ^ 3 := by
      refine T3.congr (fun ν => ?_) fun ν => rfl
      simp only [Function.comp]
      rw [← sub_eq_add_neg]
      ring
    exact T1.trans (sT.pow 3)
  refine ((key.near 0).sub T').congr' ?_ EventuallyEq.rfl
  filter_upwards [hj 0] with ν hν
  rw [add_zero] at hν ⊢
  have hEn := interior_entire _ (by rw [(hT ν).ghosts]; omega) _ ((hT ν).owned _ hν)
  have e : ρ ν = dens (refRun 1 (Dom ν) (Gr ν).wrap (est ν) (ctrl ν) (prog ν) n (Y ν, dt0 ν)).1.1 (j ν) := by
    simp only [ρ, meshDens]
    rw [(A ν n).1.1 _ _ hEn]
    simp only [sub_add_cancel]
    rfl
  rw [e, eT, eC]
  push_cast
  ring

end

/-- **C161 (concrete, linear)**: the unit interval in `2 ν + 1` cells, cut into blocks of equal size in any way, periodic; a wave in the density between 1 and 2 moves at three fifths of the speed of light.  The steps are chosen by
any controller that keeps them within a twentieth of a cell.  After any fixed number of steps with `rk2` or `rk3` the density of the middle cell is that of the moved wave up to the third power of the cell width. -/
theorem ex_run_order (nb nx : ℕ → ℕ) [∀ ν, NeZero (nb ν)] (hN : ∀ ν, nb ν * nx ν = 2 * ν + 1) (l : List ℝ) (hl : l = [1, 1/2] ∨ l = [1, 1/4, 2/3]) (n : ℕ)
    (est : ℕ → Pos → (Fin 11 → ℝ) → (Fin 3 → ℝ × ℝ) → ℝ) (ctrl : ℕ → ℕ → ℝ → Set ℝ → ℝ) (dt0 : ℕ → ℝ)
    (hd0 : ∀ ν, 0 ≤ dt0 ν ∧ dt0 ν ≤ 1/20 * (1 / (2 * (ν : ℝ) + 1))) (hct : ∀ ν k dt s, 0 ≤ ctrl ν k dt s ∧ ctrl ν k dt s ≤ 1/20 * (1 / (2 * (ν : ℝ) + 1)))
    (mem : ∀ ν, ℕ → ℕ → ((d : Fin 3) → Fin ((![nb ν, 1, 1] : Fin 3 → ℕ) d)) → Mem ℝ 11) (ho : ∀ ν, Complete (hatGrid (nb ν) (nx ν)) (mem ν)) :
    let h := fun ν : ℕ => 1 / (2 * (ν : ℝ) + 1)
    let R := fun ν k => run (hatGrid (nb ν) (nx ν)) (est ν) (ctrl ν) (fun _ _ => l.map fun β => hatStage β (h ν)) (mem ν) k (waveStart (nb ν) (nx ν), dt0 ν)
    (fun ν => meshDens (hatGrid (nb ν) (nx ν)) (R ν n).1 ν - wave (1/2 - 3/5 * ∑ k ∈ Finset.range n, (R ν k).2)) =O[atTop] fun ν => h ν ^ 3 := by
  intro h R
  have hp : ∀ ν, 0 < h ν := fun ν => by positivity
  have h0 : Tendsto h atTop (𝓝 0) := by
    have : Tendsto (fun ν : ℕ => 2 * (ν : ℝ) + 1) atTop atTop :=
      tendsto_atTop_add_const_right _ _ (tendsto_natCast_atTop_atTop.const_mul_atTop (by norm_num))
    have e : h = (fun ν : ℕ => 2 * (ν : ℝ) + 1)⁻¹ := by funext ν; simp [h]
    rw [e]; exact this.inv_tendsto_atTop
  have hd : C2P.flat.alpha * drift C2P.flat exSur 0 = 3/5 := by
    unfold drift; rw [ex_lorentz]; norm_num [C2P.flat, exSur]
  have hβ : ∀ β ∈ l, 0 ≤ β ∧ β ≤ 1 := by
    intro β hβ
    rcases hl with rfl | rfl <;> simp at hβ <;> rcases hβ with rfl | rfl | rfl <;> norm_num
  have hA : advance l = 1 ∧ bend l = 1/2 := by
    rcases hl with rfl | rfl
    · exact ⟨advance_schemes.2.1, bend_schemes.2.1⟩
    · exact ⟨advance_schemes.2.2.1, bend_schemes.2.2.1⟩
  have hdt : ∀ ν k, 0 ≤ (R ν k).2 ∧ (R ν k).2 ≤ 1/20 * h ν := fun ν k => by
    cases k with
    | zero => exact hd0 ν
    | succ k => exact hct ν _ _ _
  have inst : ∀ ν d, NeZero ((![nb ν, 1, 1] : Fin 3 → ℕ) d) := fun ν d => by fin_cases d <;> simp <;> infer_instance
  have hxs : ∀ ν d, 0 < (![nx ν, 1, 1] : Fin 3 → ℕ) d := fun ν d => by
    have : 0 < nx ν := Nat.pos_of_ne_zero fun h => by have := hN ν; rw [h] at this; omega
    fin_cases d <;> simp [this]
  have hpos : ∀ ν d, 0 < (![nb ν, 1, 1] : Fin 3 → ℕ) d * (![nx ν, 1, 1] : Fin 3 → ℕ) d := fun ν d => Nat.mul_pos (Nat.pos_of_ne_zero (inst ν d).out) (hxs ν d)
  have TT := fun ν => @regular_tiles 1 2 ![nb ν, 1, 1] ![nx ν, 1, 1] (inst ν) (hxs ν) (fun d hd => by fin_cases d <;> simp at hd ⊢) _ (wrapPeriodic_box _ (hpos ν))
  have hNh : ∀ ν, 1 / ((nb ν * nx ν : ℕ) : ℝ) = h ν := fun ν => by rw [hN]; simp only [h]; push_cast; rfl
  have half : Real.cos (2 * Real.pi * (1/2)) = -1 ∧ Real.sin (2 * Real.pi * (1/2)) = 0 := by
    rw [show 2 * Real.pi * (1/2) = Real.pi by ring]; exact ⟨Real.cos_pi, Real.sin_pi⟩
  have key := run_order (small := 0) (fun ν => hatGrid (nb ν) (nx ν)) 2 _ TT est ctrl le_rfl (fun ν _ _ => l.map fun β => hatStage β (h ν)) l
    (fun ν _ _ => by rw [List.map_map]; exact (List.map_congr_left fun β _ => rfl).trans (List.map_id l)) hA.1 mem ho ex_background
    (fun ν _ _ P hP => by obtain ⟨β, _, rfl⟩ := List.mem_map.1 hP; rfl) h0 hp
    (fun ν => (ν : ℤ)) (fun k => by
      filter_upwards [eventually_ge_atTop k.natAbs] with ν hν d
      fin_cases d
      · simp only [line]
        have e : ((![nb ν, 1, 1] : Fin 3 → ℕ) 0 * (![nx ν, 1, 1] : Fin 3 → ℕ) 0 : ℕ) = 2 * ν + 1 := hN ν
        constructor
        · simp; omega
        · show (ν : ℤ) + k < (((![nb ν, 1, 1] : Fin 3 → ℕ) 0 * (![nx ν, 1, 1] : Fin 3 → ℕ) 0 : ℕ) : ℤ)
          rw [e]; push_cast; omega
      · simp [line]
      · simp [line])
    (x := 1/2) (Eventually.of_forall fun y => (wave_deriv y).1) (Eventually.of_forall fun y => (wave_deriv y).2.1) (wave_deriv (1/2)).2.2
    (by rw [half.1, half.2]; have := Real.pi_pos; norm_num)
    (fun ν => waveStart (nb ν) (nx ν)) (fun ν => (fun p => exSur.cell true C2P.flat 1 (wave (h ν * ((p 0 : ℝ) + 1/2))), fun _ _ => 0))
    (fun ν => ⟨fun i q _ => by simp only [waveStart]; rw [hNh], fun _ _ _ _ => rfl⟩) (fun ν p => ⟨_, (wave_range _).1, (wave_range _).2, rfl⟩) dt0 n
    (fun ν k _ P hP => by
      obtain ⟨β, hb, rfl⟩ := List.mem_map.1 hP
      refine ⟨hat_stage _ _ (hp ν) (hβ β hb), rfl, rfl, ?_⟩
      refine FrontCourant.half (hp ν) (by norm_num) ⟨(hdt ν k).1, ?_⟩
      rw [if_neg (by simp [hatStage, codePhys])]
      show _ ≤ h ν
      have := (hdt ν k).2
      have := hp ν
      linarith)
    (fun k => Eventually.of_forall fun ν => by
      show wave _ = wave _
      congr 1
      simp only [line, h]
      push_cast
      have : (0:ℝ) < 2 * (ν : ℝ) + 1 := by positivity
      field_simp
      ring)
  simp only [hd, hA.2] at key
  refine key.congr_left fun ν => ?_
  simp only [R]
  ring

end Phoebus.Step
