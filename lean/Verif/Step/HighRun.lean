import Verif.Step.High

/-!
# High order over several steps (C161)

Any fixed number of steps of the code with WENO5-Z or MP5 reconstruction, every step of the length the code chooses itself.
-/
namespace Phoebus.Step
open FluxSweep Geom Riemann Rel Carry Asymptotics Filter Topology

/-- a bounded sequence. -/
def Bd (u : ℕ → ℝ) : Prop := ∃ C, ∀ ν, |u ν| ≤ C

theorem Bd.const (c : ℝ) : Bd fun _ => c := ⟨|c|, fun _ => le_rfl⟩

theorem Bd.add {u v : ℕ → ℝ} : Bd u → Bd v → Bd fun ν => u ν + v ν := fun ⟨C, h⟩ ⟨D, k⟩ => ⟨C + D, fun ν => (abs_add_le _ _).trans (add_le_add (h ν) (k ν))⟩

theorem Bd.mul {u v : ℕ → ℝ} : Bd u → Bd v → Bd fun ν => u ν * v ν := fun ⟨C, h⟩ ⟨D, k⟩ => ⟨C * D, fun ν => by
  rw [abs_mul]; exact mul_le_mul (h ν) (k ν) (abs_nonneg _) ((abs_nonneg _).trans (h ν))⟩

theorem Bd.bigO {u : ℕ → ℝ} : Bd u → u =O[atTop] fun _ => (1:ℝ) := fun ⟨C, h⟩ =>
  IsBigO.of_bound C (Eventually.of_forall fun ν => by rw [norm_one, mul_one]; exact h ν)

/-- around cell `j` the values `r` are the expansion to third order of a profile, moved with the coefficients `a b d`, which may differ from mesh to mesh. -/
structure Moved (f0 f1 f2 f3 : ℝ) (a b d : ℕ → ℝ) (h : ℕ → ℝ) (j : ℕ → ℤ) (r : ℕ → ℤ → ℝ) : Prop where
  ba : Bd a
  bb : Bd b
  near : ∀ k : ℤ, (fun ν => r ν (j ν + k) - cub f0 f1 f2 f3 1 (a ν) (b ν) (d ν) (h ν) k) =O[atTop] fun ν => h ν ^ 4

section
variable {f0 f1 f2 f3 : ℝ} {a b d a0 b0 d0 : ℕ → ℝ} {h : ℕ → ℝ} {j : ℕ → ℤ} {r r0 : ℕ → ℤ → ℝ}

theorem seq_bigO (h0 : Tendsto h atTop (𝓝 0)) {A B : ℕ → ℝ} (hA : Bd A) (hB : Bd B) : (fun ν => A ν * h ν ^ 2 + B ν * h ν ^ 3) =O[atTop] fun ν => h ν ^ 2 := by
  have u := hA.bigO.mul (isBigO_refl (fun ν => h ν ^ 2) atTop)
  have v := hB.bigO.mul (Recon.pow_bigO h0 (by norm_num) : (fun ν => h ν ^ 3) =O[atTop] fun ν => h ν ^ 2)
  simpa using u.add v

theorem Moved.ramp (hr : Moved f0 f1 f2 f3 a b d h j r) (h0 : Tendsto h atTop (𝓝 0)) (hf : f1 ≠ 0) (k : ℤ) :
    Recon.Ramp atTop h (fun ν => r ν (j ν + (k - 2))) (fun ν => r ν (j ν + (k - 1))) (fun ν => r ν (j ν + k)) (fun ν => r ν (j ν + (k + 1))) (fun ν => r ν (j ν + (k + 2))) f1 := by
  have E := hr.near
  have p2 : ∀ n : ℕ, 4 ≥ n → (fun ν => h ν ^ 4) =O[atTop] fun ν => h ν ^ n := fun n hn => Recon.pow_bigO h0 hn
  have lin : ∀ c : ℝ, Bd fun ν => c + -1 * a ν := fun c => (Bd.const c).add ((Bd.const (-1)).mul hr.ba)
  refine ⟨hf, ?_, ?_, ?_, ?_, ?_, ?_, ?_⟩
  · have := (((E (k + 1)).sub (E k)).trans (p2 2 (by norm_num))).add (seq_bigO h0 ((Bd.const f2).mul (lin ((k:ℝ) + 1/2)))
      ((Bd.const f3).mul (((Bd.const ((k:ℝ) ^ 2 / 2 + k / 2 + 1/6)).add ((Bd.const (-(k + 1/2))).mul hr.ba)).add hr.bb)))
    refine this.congr_left fun ν => ?_
    unfold cub; push_cast; ring
  · have := ((((E (k - 2)).sub ((E (k - 1)).const_mul_left 2)).add (E k)).trans (p2 2 (by norm_num))).add (seq_bigO h0 (Bd.const f2) ((Bd.const f3).mul (lin ((k:ℝ) - 1))))
    refine this.congr_left fun ν => ?_
    unfold cub; push_cast; ring
  · have := ((((E (k - 1)).sub ((E k).const_mul_left 2)).add (E (k + 1))).trans (p2 2 (by norm_num))).add (seq_bigO h0 (Bd.const f2) ((Bd.const f3).mul (lin (k:ℝ))))
    refine this.congr_left fun ν => ?_
    unfold cub; push_cast; ring
  · have := ((((E k).sub ((E (k + 1)).const_mul_left 2)).add (E (k + 2))).trans (p2 2 (by norm_num))).add (seq_bigO h0 (Bd.const f2) ((Bd.const f3).mul (lin ((k:ℝ) + 1))))
    refine this.congr_left fun ν => ?_
    unfold cub; push_cast; ring
  · have := (((((E (k + 1)).sub ((E k).const_mul_left 3)).add ((E (k - 1)).const_mul_left 3)).sub (E (k - 2))).trans (p2 3 (by norm_num))).add
      ((isBigO_refl (fun ν => h ν ^ 3) atTop).const_mul_left f3)
    refine this.congr_left fun ν => ?_
    unfold cub; push_cast; ring
  · have := (((((E (k + 2)).sub ((E (k + 1)).const_mul_left 3)).add ((E k).const_mul_left 3)).sub (E (k - 1))).trans (p2 3 (by norm_num))).add
      ((isBigO_refl (fun ν => h ν ^ 3) atTop).const_mul_left f3)
    refine this.congr_left fun ν => ?_
    unfold cub; push_cast; ring
  · have := (((((E (k + 2)).sub ((E (k + 1)).const_mul_left 4)).add ((E k).const_mul_left 6)).sub ((E (k - 1)).const_mul_left 4)).add (E (k - 2)))
    refine this.congr_left fun ν => ?_
    unfold cub; push_cast; ring

/-- both face states of the two methods are those of the cubic profile, up to the fourth power. -/
theorem Moved.faces (hr : Moved f0 f1 f2 f3 a b d h j r) (h0 : Tendsto h atTop (𝓝 0)) (hp : ∀ ν, 0 < h ν) (hf : f1 ≠ 0) {rt : Method} (hrt : rt = .weno5z ∨ rt = .mp5)
    {ew em : ℕ → ℝ} {C : ℝ} (he : ∀ ν, 0 < ew ν ∧ ew ν ≤ 1 ∧ 0 ≤ em ν) (hC : rt = .weno5z → ∀ ν, ew ν ≤ C * h ν ^ 2) (k : ℤ) :
    (fun ν => (kernel (ew ν) (em ν) rt fun i => r ν (j ν + (k - 1) + i)).1 - cubFace f0 f1 f2 f3 1 (a ν) (b ν) (d ν) (h ν) k) =O[atTop] (fun ν => h ν ^ 4) ∧
    (fun ν => (kernel (ew ν) (em ν) rt fun i => r ν (j ν + k + i)).2 - cubFace f0 f1 f2 f3 1 (a ν) (b ν) (d ν) (h ν) k) =O[atTop] (fun ν => h ν ^ 4) := by
  have R := fun k => hr.ramp h0 hf k
  have hr := hr.near
  have hpe : ∀ᶠ ν in atTop, 0 < h ν := Eventually.of_forall hp
  have low : ∀ k, (fun ν => Recon.mp5High (r ν (j ν + (k - 2))) (r ν (j ν + (k - 1))) (r ν (j ν + k)) (r ν (j ν + (k + 1))) (r ν (j ν + (k + 2))) - cubFace f0 f1 f2 f3 1 (a ν) (b ν) (d ν) (h ν) (k + 1)) =O[atTop] fun ν => h ν ^ 4 := fun k => by
    have := (((((hr (k - 2)).const_mul_left (2/60)).sub ((hr (k - 1)).const_mul_left (13/60))).add ((hr k).const_mul_left (47/60))).add ((hr (k + 1)).const_mul_left (27/60))).sub ((hr (k + 2)).const_mul_left (3/60))
    refine this.congr_left fun ν => ?_
    unfold cubFace Recon.mp5High cub
    push_cast
    ring
  have high : ∀ k, (fun ν => Recon.mp5High (r ν (j ν + (k + 2))) (r ν (j ν + (k + 1))) (r ν (j ν + k)) (r ν (j ν + (k - 1))) (r ν (j ν + (k - 2))) - cubFace f0 f1 f2 f3 1 (a ν) (b ν) (d ν) (h ν) k) =O[atTop] fun ν => h ν ^ 4 := fun k => by
    have := (((((hr (k + 2)).const_mul_left (2/60)).sub ((hr (k + 1)).const_mul_left (13/60))).add ((hr k).const_mul_left (47/60))).add ((hr (k - 1)).const_mul_left (27/60))).sub ((hr (k - 2)).const_mul_left (3/60))
    refine this.congr_left fun ν => ?_
    unfold cubFace Recon.mp5High cub
    push_cast
    ring
  have sh : ∀ ν (k i : ℤ), j ν + k + i = j ν + (k + i) := fun ν k i => by ring
  rcases hrt with rfl | rfl
  · have small : (fun ν => h ν ^ 5 + ew ν * h ν ^ 2) =O[atTop] fun ν => h ν ^ 4 := by
      refine (Recon.pow_bigO h0 (by norm_num)).add (IsBigO.of_bound C (Eventually.of_forall fun ν => ?_))
      have := (he ν).1
      have hpν := hp ν
      rw [Real.norm_of_nonneg (by positivity), Real.norm_of_nonneg (by positivity)]
      have := mul_le_mul_of_nonneg_right (hC rfl ν) (by positivity : 0 ≤ h ν ^ 2)
      refine this.trans_eq (by ring)
    have hee : ∀ᶠ ν in atTop, 0 < ew ν ∧ ew ν ≤ 1 := Eventually.of_forall fun ν => ⟨(he ν).1, (he ν).2.1⟩
    constructor
    · have := (((R (k - 1)).weno h0 hpe hee).trans small).add (low (k - 1))
      refine this.congr_left fun ν => ?_
      simp only [kernel, sh]
      rw [show k - 1 + -2 = k - 1 - 2 by ring, show k - 1 + -1 = k - 1 - 1 by ring, show k - 1 + 0 = k - 1 by ring]
      push_cast
      rw [sub_add_cancel]
      ring
    · have := (((R k).reverse.weno h0 hpe hee).trans small).add (high k)
      refine this.congr_left fun ν => ?_
      simp only [kernel, sh]
      rw [show k + -2 = k - 2 by ring, show k + -1 = k - 1 by ring, add_zero]
      rw [(Recon.recon_mirror (ew ν) (em ν) (r ν (j ν + (k - 2))) (r ν (j ν + (k - 1))) (r ν (j ν + k)) (r ν (j ν + (k + 1))) (r ν (j ν + (k + 2)))).2.1]
      simp only [Prod.fst_swap]
      ring
  · constructor
    · refine (low (k - 1)).congr' ?_ EventuallyEq.rfl
      filter_upwards [(R (k - 1)).mp5 h0 hpe] with ν hν
      simp only [kernel, sh, Recon.mp5]
      rw [show k - 1 + -2 = k - 1 - 2 by ring, show k - 1 + -1 = k - 1 - 1 by ring, show k - 1 + 0 = k - 1 by ring, hν _ (he ν).2.2]
      push_cast
      simp only [sub_add_cancel]
    · refine (high k).congr' ?_ EventuallyEq.rfl
      filter_upwards [(R k).reverse.mp5 h0 hpe] with ν hν
      simp only [kernel, sh, Recon.mp5]
      rw [show k + -2 = k - 2 by ring, show k + -1 = k - 1 by ring, add_zero, hν _ (he ν).2.2]

/-- a stage whose face states are those of the cubic profile keeps the expansion. -/
theorem Moved.stage {θ : ℕ → ℝ} (hθ : Bd θ) (hr : Moved f0 f1 f2 f3 a b d h j r) (hr0 : Moved f0 f1 f2 f3 a0 b0 d0 h j r0)
    {w β : ℝ} {lam : ℕ → ℝ} (hw : ∀ ν, θ ν = w * lam ν) (σ Lf Rf : ℕ → ℤ → ℝ) {D : ℝ} (hσ : ∀ ν i, |lam ν * σ ν i| ≤ D)
    (hL : ∀ k : ℤ, (fun ν => Lf ν (j ν + k) - cubFace f0 f1 f2 f3 1 (a ν) (b ν) (d ν) (h ν) k) =O[atTop] fun ν => h ν ^ 4)
    (hR : ∀ k : ℤ, (fun ν => Rf ν (j ν + k) - cubFace f0 f1 f2 f3 1 (a ν) (b ν) (d ν) (h ν) k) =O[atTop] fun ν => h ν ^ 4) (r' : ℕ → ℤ → ℝ)
    (hr' : ∀ k, ∀ᶠ ν in atTop, let F := fun i => (w + σ ν i) * Lf ν i - σ ν i * Rf ν i
      r' ν (j ν + k) = β * (r ν (j ν + k) - lam ν * (F (j ν + (k + 1)) - F (j ν + k))) + (1 - β) * r0 ν (j ν + k)) :
    Moved f0 f1 f2 f3 (fun ν => β * (a ν + θ ν) + (1 - β) * a0 ν) (fun ν => β * (b ν + a ν * θ ν) + (1 - β) * b0 ν) (fun ν => β * (d ν + b ν * θ ν) + (1 - β) * d0 ν) h j r' := by
  refine ⟨((Bd.const β).mul (hr.ba.add hθ)).add ((Bd.const (1 - β)).mul hr0.ba), ((Bd.const β).mul (hr.bb.add (hr.ba.mul hθ))).add ((Bd.const (1 - β)).mul hr0.bb), fun k => ?_⟩
  have hs1 : ∀ i, (fun ν => lam ν * σ ν (j ν + i)) =O[atTop] fun _ => (1:ℝ) := fun i =>
    IsBigO.of_bound D (Eventually.of_forall fun ν => by rw [norm_one, mul_one]; exact hσ ν _)
  have hD : ∀ i : ℤ, (fun ν => (lam ν * σ ν (j ν + i)) * ((Lf ν (j ν + i) - cubFace f0 f1 f2 f3 1 (a ν) (b ν) (d ν) (h ν) i) - (Rf ν (j ν + i) - cubFace f0 f1 f2 f3 1 (a ν) (b ν) (d ν) (h ν) i))) =O[atTop] fun ν => h ν ^ 4 := fun i => by
    simpa using (hs1 i).mul ((hL i).sub (hR i))
  have hT : (fun ν => θ ν * ((Lf ν (j ν + (k + 1)) - cubFace f0 f1 f2 f3 1 (a ν) (b ν) (d ν) (h ν) (k + 1 : ℤ)) - (Lf ν (j ν + k) - cubFace f0 f1 f2 f3 1 (a ν) (b ν) (d ν) (h ν) k))) =O[atTop] fun ν => h ν ^ 4 := by
    simpa using hθ.bigO.mul ((hL (k + 1)).sub (hL k))
  have total := ((((hr.near k).sub hT).sub ((hD (k + 1)).sub (hD k))).const_mul_left β).add ((hr0.near k).const_mul_left (1 - β))
  refine total.congr' ?_ EventuallyEq.rfl
  filter_upwards [hr' k] with ν q
  simp only at q
  rw [q, hw]
  unfold cubFace Recon.mp5High cub
  push_cast
  ring

end

/-! ### The step of the code -/

section
variable {c : Surround} {sol : MeshRun.Solver} {small eps : ℝ} {val : Bool} {G : ADM ℝ} {g : ℝ} {L : Limits} {m M : ℝ} {S : Fin 3 → ℝ}

/-- one stage on the undivided domain, for a sequence of meshes with steps of lengths `lam ν h ν`. -/
theorem stage_moved (hB : Background c sol eps G L m M S) {rt : Method} (hrt : rt = .weno5z ∨ rt = .mp5) {f0 f1 f2 f3 β C A δ : ℝ} {a b d a0 b0 d0 lam h : ℕ → ℝ} {j : ℕ → ℤ}
    (h0 : Tendsto h atTop (𝓝 0)) (hp : ∀ ν, 0 < h ν) (hf : f1 ≠ 0) (P : ℕ → Phys ℝ 11) (hP : ∀ ν, HighStage c sol small eps val G g L m M S rt C (lam ν) (h ν) (P ν)) (hβ : ∀ ν, (P ν).beta = β)
    (wrap : ℕ → Pos → Pos) (hw : ∀ k : ℤ, ∀ᶠ ν in atTop, wrap ν (line (j ν + k)) = line (j ν + k)) (base cur : ℕ → Fields ℝ 11)
    (hb : ∀ ν, IsContact c val G g (A - δ) (A + δ) (base ν)) (hc : ∀ ν, IsContact c val G g (A - δ) (A + δ) (cur ν)) (hm : m ≤ A - spread * δ) (hM : A + spread * δ ≤ M)
    (N0 : Moved f0 f1 f2 f3 a0 b0 d0 h j fun ν => dens (base ν)) (N1 : Moved f0 f1 f2 f3 a b d h j fun ν => dens (cur ν)) :
    (∀ ν, IsContact c val G g (A - spread * δ) (A + spread * δ) (refFields 1 (wrap ν) (lam ν * h ν) (base ν) (cur ν) (P ν))) ∧ Bd (fun ν => G.alpha * drift G c 0 * lam ν) ∧
      Moved f0 f1 f2 f3 (fun ν => β * (a ν + G.alpha * drift G c 0 * lam ν) + (1 - β) * a0 ν) (fun ν => β * (b ν + a ν * (G.alpha * drift G c 0 * lam ν)) + (1 - β) * b0 ν)
        (fun ν => β * (d ν + b ν * (G.alpha * drift G c 0 * lam ν)) + (1 - β) * d0 ν) h j fun ν => dens (refFields 1 (wrap ν) (lam ν * h ν) (base ν) (cur ν) (P ν)) := by
  have hst := fun ν => stage_band hB (P ν) (hP ν).smooth 1 (lam ν * h ν) (hP ν).courant (wrap ν) (base ν) (cur ν) A δ (hb ν) (hc ν) hm hM
  choose σ hσ hin hst using hst
  set r : ℕ → Pos → ℝ := fun ν q => (cur ν q).2 0 with hr
  -- lengths of the steps in cells
  have hl0 : ∀ ν, 0 ≤ lam ν := fun ν => nonneg_of_mul_nonneg_left (hP ν).courant.1 (hp ν)
  have hl1 : ∀ ν, lam ν * S 0 ≤ 1/2 := fun ν => by
    have := (hP ν).courant.2
    rw [Fin.sum_univ_three, if_pos (by decide), if_neg (by decide), if_neg (by decide), (hP ν).size] at this
    have hpν := (hp ν).ne'
    have e : 2 * (lam ν * h ν) * (S 0 / h ν + 0 + 0) = 2 * (lam ν * S 0) := by field_simp; ring
    linarith
  have hsig : ∀ ν i, |lam ν * σ ν 0 (densL (P ν) (r ν) 0 (line i)) (densR (P ν) (r ν) 0 (line i))| ≤ 1/2 := fun ν i => by
    have := hσ ν 0 _ _ (hin ν 0 (line i)).1 (hin ν 0 (line i)).2
    rw [abs_of_nonneg (mul_nonneg (hl0 ν) this.1)]
    exact (mul_le_mul_of_nonneg_left this.2.2.1 (hl0 ν)).trans (hl1 ν)
  have hbd : Bd (fun ν => G.alpha * drift G c 0 * lam ν) := ⟨1/2, fun ν => by
    have := hσ ν 0 _ _ (hin ν 0 (line 0)).1 (hin ν 0 (line 0)).2
    set s := σ ν 0 (densL (P ν) (r ν) 0 (line 0)) (densR (P ν) (r ν) 0 (line 0))
    obtain ⟨u1, u2, u3, u4⟩ := this
    have u : |G.alpha * drift G c 0| ≤ S 0 := abs_le.2 ⟨by linarith, by linarith⟩
    rw [abs_mul, abs_of_nonneg (hl0 ν), mul_comm]
    exact (mul_le_mul_of_nonneg_left u (hl0 ν)).trans (hl1 ν)⟩
  refine ⟨fun ν p => ?_, hbd, ?_⟩
  · obtain ⟨h1, h2⟩ := hst ν p
    rw [abs_le] at h1
    exact ⟨_, by linarith, by linarith, h2⟩
  have fc := fun k => N1.faces h0 hp hf hrt (ew := fun ν => (P ν).ew) (em := fun ν => (P ν).em) (C := C) (fun ν => (hP ν).smooth.recon) (fun e ν => (hP ν).reg e) k
  have eL : ∀ ν i, densL (P ν) (r ν) 0 (line i) = (kernel (P ν).ew (P ν).em rt fun k => dens (cur ν) (i - 1 + k)).1 := fun ν i => by
    unfold densL; rw [(line_window (r ν) i).1, (hP ν).method]; rfl
  have eR : ∀ ν i, densR (P ν) (r ν) 0 (line i) = (kernel (P ν).ew (P ν).em rt fun k => dens (cur ν) (i + k)).2 := fun ν i => by
    unfold densR; rw [(line_window (r ν) i).2, (hP ν).method]; rfl
  refine N1.stage hbd N0 (w := G.alpha * drift G c 0) (lam := lam) (β := β) (D := 1/2) (fun _ => rfl)
    (fun ν i => σ ν 0 (densL (P ν) (r ν) 0 (line i)) (densR (P ν) (r ν) 0 (line i))) (fun ν i => densL (P ν) (r ν) 0 (line i)) (fun ν i => densR (P ν) (r ν) 0 (line i))
    hsig (fun k => ?_) (fun k => ?_) _ fun k => ?_
  · refine (fc k).1.congr_left fun ν => ?_
    rw [eL, show j ν + k - 1 = j ν + (k - 1) by ring]
  · refine (fc k).2.congr_left fun ν => ?_
    rw [eR]
  · filter_upwards [hw k] with ν hk
    have e := carried_any (P ν) (lam ν * h ν) (fun d => G.alpha * drift G c d) (σ ν) (fun q => (base ν q).2 0) (r ν) (j ν + k)
    unfold dens
    rw [(hst ν (line (j ν + k))).2, hk]
    show carried (P ν) 1 (lam ν * h ν) (fun d => G.alpha * drift G c d) (σ ν) (fun q => (base ν q).2 0) (r ν) (line (j ν + k)) = _
    rw [e, (hP ν).size, hβ, mul_div_cancel_right₀ _ (hp ν).ne']
    simp only [add_assoc]
    rfl

/-- all stages of a step: `x y z` are the coefficients of the stages within the step, relative to those of its start. -/
theorem stages_moved (hB : Background c sol eps G L m M S) {rt : Method} (hrt : rt = .weno5z ∨ rt = .mp5) {f0 f1 f2 f3 C A δ : ℝ} {a0 b0 d0 lam h : ℕ → ℝ} {j : ℕ → ℤ} (h0 : Tendsto h atTop (𝓝 0)) (hp : ∀ ν, 0 < h ν)
    (hf : f1 ≠ 0) (hδ : 0 ≤ δ) (wrap : ℕ → Pos → Pos) (hw : ∀ k : ℤ, ∀ᶠ ν in atTop, wrap ν (line (j ν + k)) = line (j ν + k)) (base : ℕ → Fields ℝ 11)
    (hb : ∀ ν, IsContact c val G g (A - δ) (A + δ) (base ν)) (N0 : Moved f0 f1 f2 f3 a0 b0 d0 h j fun ν => dens (base ν)) (θ : ℕ → ℝ) (hθ : ∀ ν, θ ν = G.alpha * drift G c 0 * lam ν) (l : List ℝ) :
    ∀ (Ps : ℕ → List (Phys ℝ 11)), (∀ ν, (Ps ν).map Phys.beta = l) → (∀ ν, ∀ P ∈ Ps ν, HighStage c sol small eps val G g L m M S rt C (lam ν) (h ν) P) →
    ∀ (cur : ℕ → Glob ℝ 11) (x y z δ' : ℝ), δ ≤ δ' → m ≤ A - spread ^ l.length * δ' → A + spread ^ l.length * δ' ≤ M → (∀ ν, IsContact c val G g (A - δ') (A + δ') (cur ν).1) →
      Moved f0 f1 f2 f3 (fun ν => a0 ν + x * θ ν) (fun ν => b0 ν + x * a0 ν * θ ν + y * θ ν ^ 2) (fun ν => d0 ν + x * b0 ν * θ ν + y * a0 ν * θ ν ^ 2 + z * θ ν ^ 3) h j (fun ν => dens (cur ν).1) →
      let q := l.foldl (fun a β => (β * (a.1 + 1), β * (a.2.1 + a.1), β * (a.2.2 + a.2.1))) (x, y, z)
      (∀ ν, IsContact c val G g (A - spread ^ l.length * δ') (A + spread ^ l.length * δ') ((Ps ν).foldl (refStage 1 (wrap ν) (lam ν * h ν) (base ν)) (cur ν)).1) ∧
      Moved f0 f1 f2 f3 (fun ν => a0 ν + q.1 * θ ν) (fun ν => b0 ν + q.1 * a0 ν * θ ν + q.2.1 * θ ν ^ 2) (fun ν => d0 ν + q.1 * b0 ν * θ ν + q.2.1 * a0 ν * θ ν ^ 2 + q.2.2 * θ ν ^ 3) h j
        fun ν => dens ((Ps ν).foldl (refStage 1 (wrap ν) (lam ν * h ν) (base ν)) (cur ν)).1 := by
  induction l with
  | nil =>
    intro Ps hPs _ cur x y z δ' _ _ _ hc hN
    have : ∀ ν, Ps ν = [] := fun ν => List.map_eq_nil_iff.1 (hPs ν)
    simpa [this] using ⟨hc, hN⟩
  | cons β l ih =>
    intro Ps hPs hP cur x y z δ' hδ' hm hM hc hN
    have hd : ∀ ν, ∃ P Q, Ps ν = P :: Q ∧ P.beta = β ∧ Q.map Phys.beta = l := fun ν => by
      obtain ⟨P, Q, e1, e2, e3⟩ := List.map_eq_cons_iff.1 (hPs ν)
      exact ⟨P, Q, e1, e2, e3⟩
    choose P Q e1 e2 e3 using hd
    have hmem : ∀ ν, P ν ∈ Ps ν := fun ν => by rw [e1]; simp
    have pw : spread * δ' ≤ spread ^ (l.length + 1) * δ' := by
      refine mul_le_mul_of_nonneg_right ?_ (hδ.trans hδ')
      exact le_self_pow₀ (by unfold spread; norm_num) (by omega)
    rw [List.length_cons] at hm hM
    obtain ⟨c1, -, n1⟩ := stage_moved (δ := δ') hB hrt h0 hp hf P (fun ν => hP ν _ (hmem ν)) e2 wrap hw base (fun ν => (cur ν).1)
      (fun ν => (hb ν).mono (by linarith) (by linarith)) hc (by linarith) (by linarith) N0 hN
    have es : spread ^ (l.length + 1) * δ' = spread ^ l.length * (spread * δ') := by ring
    have n2 : Moved f0 f1 f2 f3 (fun ν => a0 ν + β * (x + 1) * θ ν) (fun ν => b0 ν + β * (x + 1) * a0 ν * θ ν + β * (y + x) * θ ν ^ 2)
        (fun ν => d0 ν + β * (x + 1) * b0 ν * θ ν + β * (y + x) * a0 ν * θ ν ^ 2 + β * (z + y) * θ ν ^ 3) h j (fun ν => dens (refStage 1 (wrap ν) (lam ν * h ν) (base ν) (cur ν) (P ν)).1) := by
      convert n1 using 1
      · funext ν; simp only [hθ]; ring
      · funext ν; simp only [hθ]; ring
      · funext ν; simp only [hθ]; ring
      · rfl
    have := ih Q e3 (fun ν P' h' => hP ν P' (by rw [e1]; exact List.mem_cons_of_mem _ h')) (fun ν => refStage 1 (wrap ν) (lam ν * h ν) (base ν) (cur ν) (P ν)) _ _ _ (spread * δ')
      (hδ'.trans (by unfold spread; linarith)) (by rw [← es]; exact hm) (by rw [← es]; exact hM) c1 n2
    rw [List.length_cons, es]
    simpa [e1] using this

/-- the undivided run: after `n` steps the density is the expansion of the profile moved by the time elapsed. -/
theorem refRun_moved (hB : Background c sol eps G L m M S) {rt : Method} (hrt : rt = .weno5z ∨ rt = .mp5) {f0 f1 f2 f3 C A δ : ℝ} {h : ℕ → ℝ} {j : ℕ → ℤ} (h0 : Tendsto h atTop (𝓝 0)) (hp : ∀ ν, 0 < h ν)
    (hf : f1 ≠ 0) (hδ : 0 ≤ δ) (Dom : ℕ → Pos → Prop) (wrap : ℕ → Pos → Pos) (hw : ∀ k : ℤ, ∀ᶠ ν in atTop, wrap ν (line (j ν + k)) = line (j ν + k))
    (est : ℕ → Pos → (Fin 11 → ℝ) → (Fin 3 → ℝ × ℝ) → ℝ) (ctrl : ℕ → ℕ → ℝ → Set ℝ → ℝ) (prog : ℕ → ℕ → ℝ → List (Phys ℝ 11)) (l : List ℝ) (hl : ∀ ν k dt, (prog ν k dt).map Phys.beta = l)
    (ha : advance l = 1) (hb : bend l = 1/2) (Y : ℕ → Glob ℝ 11) (dt0 : ℕ → ℝ) (hY : ∀ ν, IsContact c val G g (A - δ) (A + δ) (Y ν).1)
    (N0 : Moved f0 f1 f2 f3 (fun _ => 0) (fun _ => 0) (fun _ => 0) h j fun ν => dens (Y ν).1) (n : ℕ) (hm : m ≤ A - spread ^ (l.length * n) * δ) (hM : A + spread ^ (l.length * n) * δ ≤ M)
    (hP : ∀ ν k, k < n → let dt := (refRun 1 (Dom ν) (wrap ν) (est ν) (ctrl ν) (prog ν) k (Y ν, dt0 ν)).2
      ∀ P ∈ prog ν k dt, HighStage c sol small eps val G g L m M S rt C (dt / h ν) (h ν) P) :
    let R := fun ν k => refRun 1 (Dom ν) (wrap ν) (est ν) (ctrl ν) (prog ν) k (Y ν, dt0 ν)
    let T := fun ν => ∑ k ∈ Finset.range n, G.alpha * drift G c 0 * ((R ν k).2 / h ν)
    (∀ ν, IsContact c val G g (A - spread ^ (l.length * n) * δ) (A + spread ^ (l.length * n) * δ) (R ν n).1.1) ∧
      Moved f0 f1 f2 f3 T (fun ν => T ν ^ 2 / 2) (fun ν => T ν ^ 3 / 6 - (1/6 - twist l) * ∑ k ∈ Finset.range n, (G.alpha * drift G c 0 * ((R ν k).2 / h ν)) ^ 3) h j fun ν => dens (R ν n).1.1 := by
  induction n with
  | zero =>
    intro R T
    simp only [T, R, Finset.range_zero, Finset.sum_empty, mul_zero, pow_zero, one_mul, refRun]
    refine ⟨hY, ?_⟩
    convert N0 using 2 <;> norm_num
  | succ n ih =>
    intro R T
    have mono : spread ^ (l.length * n) * δ ≤ spread ^ (l.length * (n + 1)) * δ :=
      mul_le_mul_of_nonneg_right (pow_le_pow_right₀ (by unfold spread; norm_num) (Nat.mul_le_mul_left _ (Nat.le_succ n))) hδ
    obtain ⟨c1, n1⟩ := ih (by linarith) (by linarith) fun ν k hk => hP ν k (by omega)
    have hδn : 0 ≤ spread ^ (l.length * n) * δ := mul_nonneg (pow_nonneg (by unfold spread; norm_num) _) hδ
    have es : spread ^ (l.length * (n + 1)) * δ = spread ^ l.length * (spread ^ (l.length * n) * δ) := by rw [Nat.mul_succ, pow_add]; ring
    set θ : ℕ → ℝ := fun ν => G.alpha * drift G c 0 * ((R ν n).2 / h ν) with hθ
    set T0 : ℕ → ℝ := fun ν => ∑ k ∈ Finset.range n, G.alpha * drift G c 0 * ((R ν k).2 / h ν) with hT0
    have ft := fold_twist l 0 0 0
    simp only [Prod.mk.injEq] at ft
    have ft1 : (l.foldl (fun a β => (β * (a.1 + 1), β * (a.2.1 + a.1), β * (a.2.2 + a.2.1))) ((0, 0, 0) : ℝ × ℝ × ℝ)).1 = 1 := by
      have := congrArg Prod.fst ft
      simp only at this
      rw [this, fold_advance]; exact ha
    have ft2 : (l.foldl (fun a β => (β * (a.1 + 1), β * (a.2.1 + a.1), β * (a.2.2 + a.2.1))) ((0, 0, 0) : ℝ × ℝ × ℝ)).2.1 = 1/2 := by
      have := congrArg Prod.snd ft
      simp only at this
      rw [this]; exact hb
    have ft3 : (l.foldl (fun a β => (β * (a.1 + 1), β * (a.2.1 + a.1), β * (a.2.2 + a.2.1))) ((0, 0, 0) : ℝ × ℝ × ℝ)).2.2 = twist l := rfl
    have key := stages_moved (small := small) (val := val) (g := g) (lam := fun ν => (R ν n).2 / h ν) hB hrt h0 hp hf hδn wrap hw (fun ν => (R ν n).1.1) c1 n1 θ (fun _ => rfl) l (fun ν => prog ν n (R ν n).2) (fun ν => hl ν _ _)
      (fun ν P hPm => hP ν n (Nat.lt_succ_self n) P hPm) (fun ν => (R ν n).1) 0 0 0 _ le_rfl (by rw [← es]; exact hm) (by rw [← es]; exact hM) c1 (by simpa using n1)
    simp only [ft1, ft2, ft3] at key
    have ef : ∀ ν, (prog ν n (R ν n).2).foldl (refStage 1 (wrap ν) ((R ν n).2 / h ν * h ν) (R ν n).1.1) (R ν n).1 = (R ν (n + 1)).1 := fun ν => by
      rw [div_mul_cancel₀ _ (hp ν).ne']; rfl
    simp only [ef] at key
    rw [es]
    refine ⟨key.1, ?_⟩
    convert key.2 using 1
    · funext ν
      simp only [T, Finset.sum_range_succ, hT0, hθ]; ring
    · funext ν
      simp only [T, Finset.sum_range_succ, hT0, hθ]; ring
    · funext ν
      simp only [T, Finset.sum_range_succ, hT0, hθ]; ring

/-- **C161**: a sequence of one-dimensional meshes with cell widths `h ν` tending to zero, cut into blocks in any way, with any schedule and memory contents and any boundary conditions; `x` is the centre of cell
`j ν`, which is eventually as many cells away from the boundary as one likes.  The code starts from a contact with densities within `δ` of `A`, `δ` small, whose density around `x` is a smooth profile `f` that has a
slope there, and makes `n` steps with WENO5-Z or MP5 reconstruction, LLF or HLL and stage weights `l` of at least second order; the lengths `dt ν k` of the steps are those the code's own controller chooses, as long
as they obey the Courant condition with number one half.  Then the density of the cell is that of the profile carried along for the time elapsed, `f (x - w Σ dt)`, plus, if the weights are not of third order, the sum
over the steps of the error of the third derivative, up to the fourth power of the cell width. -/
theorem run_high {B : ℕ → Type} (Gr : ∀ ν, Grid (B ν)) (gh : ℤ) (Dom : ℕ → Pos → Prop) (hT : ∀ ν, Tiles (Gr ν) 1 gh (Dom ν)) (est : ℕ → Pos → (Fin 11 → ℝ) → (Fin 3 → ℝ × ℝ) → ℝ)
    (ctrl : ℕ → ℕ → ℝ → Set ℝ → ℝ) (hg : 3 ≤ gh) (prog : ℕ → ℕ → ℝ → List (Phys ℝ 11)) (l : List ℝ) (hl : ∀ ν k dt, (prog ν k dt).map Phys.beta = l) (ha : advance l = 1) (hb : bend l = 1/2)
    (mem : ∀ ν, ℕ → ℕ → B ν → Mem ℝ 11) (ho : ∀ ν, Complete (Gr ν) (mem ν)) (hB : Background c sol eps G L m M S) {rt : Method} (hrt : rt = .weno5z ∨ rt = .mp5) (hmet : ∀ ν k dt, ∀ P ∈ prog ν k dt, P.rt = rt)
    {C : ℝ} {h : ℕ → ℝ} (h0 : Tendsto h atTop (𝓝 0)) (hp : ∀ ν, 0 < h ν)
    (j : ℕ → ℤ) (hj : ∀ k : ℤ, ∀ᶠ ν in atTop, Dom ν (line (j ν + k))) {f : ℝ → ℝ} {x : ℝ} (hf4 : ContDiff ℝ 4 f) (hf : deriv f x ≠ 0) {A δ : ℝ} (hδ : 0 ≤ δ)
    (n : ℕ) (hm : m ≤ A - spread ^ (l.length * n) * δ) (hM : A + spread ^ (l.length * n) * δ ≤ M)
    (X : ∀ ν, Mesh ℝ 11 (B ν)) (Y : ℕ → Glob ℝ 11) (hX : ∀ ν, Holds (Gr ν) (X ν) (Y ν)) (hY : ∀ ν, IsContact c val G g (A - δ) (A + δ) (Y ν).1) (dt0 : ℕ → ℝ)
    (hP : ∀ ν k, k < n → let dt := (run (Gr ν) (est ν) (ctrl ν) (prog ν) (mem ν) k (X ν, dt0 ν)).2
      ∀ P ∈ prog ν k dt, HighStage c sol small eps val G g L m M S rt C (dt / h ν) (h ν) P)
    (hdens : ∀ k : ℤ, ∀ᶠ ν in atTop, dens (Y ν).1 (j ν + k) = f (x + k * h ν)) :
    let ρ := fun ν => meshDens (Gr ν) (run (Gr ν) (est ν) (ctrl ν) (prog ν) (mem ν) n (X ν, dt0 ν)).1 (j ν)
    let dt := fun ν k => (run (Gr ν) (est ν) (ctrl ν) (prog ν) (mem ν) k (X ν, dt0 ν)).2
    let w := G.alpha * drift G c 0
    (fun ν => ρ ν - (f (x - w * ∑ k ∈ Finset.range n, dt ν k) + (1/6 - twist l) * (∑ k ∈ Finset.range n, (w * dt ν k) ^ 3) * iteratedDeriv 3 f x)) =O[atTop] fun ν => h ν ^ 4 := by
  intro ρ dt w
  have hw : ∀ k : ℤ, ∀ᶠ ν in atTop, (Gr ν).wrap (line (j ν + k)) = line (j ν + k) := fun k => by
    filter_upwards [hj k] with ν hν using (hT ν).fixed _ hν
  have N0 : Moved (f x) (deriv f x) (iteratedDeriv 2 f x) (iteratedDeriv 3 f x) (fun _ => 0) (fun _ => 0) (fun _ => 0) h j fun ν => dens (Y ν).1 := by
    refine ⟨Bd.const 0, Bd.const 0, fun k => ?_⟩
    have tk : Tendsto (fun ν => (k:ℝ) * h ν) atTop (𝓝 0) := by simpa using h0.const_mul (k:ℝ)
    have T := (Recon.taylor_bigO 4 hf4 x).comp_tendsto tk
    have T' : (fun ν => f (x + k * h ν) - ∑ n ∈ Finset.range 4, Recon.taylorCoef f x n * (k * h ν) ^ n) =O[atTop] fun ν => h ν ^ 4 := by
      refine IsBigO.trans T ?_
      have : ((fun t : ℝ => t ^ 4) ∘ fun ν => (k:ℝ) * h ν) = fun ν => (k:ℝ) ^ 4 * h ν ^ 4 := by funext ν; simp only [Function.comp]; ring
      rw [this]
      exact (isBigO_refl _ _).const_mul_left _
    refine T'.congr' ?_ EventuallyEq.rfl
    filter_upwards [hdens k] with ν hν
    rw [hν]
    simp only [Finset.sum_range_succ, Finset.sum_range_zero, Recon.taylorCoef, iteratedDeriv_zero, iteratedDeriv_one, Nat.factorial]
    unfold cub
    push_cast
    ring
  have A := fun ν => run_holds (Gr ν) 1 gh (Dom ν) (hT ν) (est ν) (ctrl ν) (prog ν) (by omega) (fun k d P h' => by
    rw [hmet ν k d P h']
    rcases hrt with rfl | rfl <;> simpa [radius] using hg) (mem ν) (ho ν) (X ν) (Y ν) (dt0 ν) (hX ν)
  have hdt : ∀ ν k, (refRun 1 (Dom ν) (Gr ν).wrap (est ν) (ctrl ν) (prog ν) k (Y ν, dt0 ν)).2 = dt ν k := fun ν k => (A ν k).2.symm
  have key := (refRun_moved (small := small) hB hrt h0 hp hf hδ Dom (fun ν => (Gr ν).wrap) hw est ctrl prog l hl ha hb Y dt0 hY N0 n hm hM fun ν k hk => by
    simp only [hdt]; exact hP ν k hk).2
  simp only [hdt] at key
  set T : ℕ → ℝ := fun ν => ∑ k ∈ Finset.range n, w * (dt ν k / h ν) with hTd
  have eT : ∀ ν, w * ∑ k ∈ Finset.range n, dt ν k = T ν * h ν := fun ν => by
    simp only [hTd, Finset.mul_sum, Finset.sum_mul]
    refine Finset.sum_congr rfl fun k _ => ?_
    have := (hp ν).ne'
    field_simp
  have eC : ∀ ν, ∑ k ∈ Finset.range n, (w * dt ν k) ^ 3 = (∑ k ∈ Finset.range n, (w * (dt ν k / h ν)) ^ 3) * h ν ^ 3 := fun ν => by
    rw [Finset.sum_mul]
    refine Finset.sum_congr rfl fun k _ => ?_
    have := (hp ν).ne'
    field_simp
  have bT : Bd T := key.ba
  have sT : (fun ν => -(T ν * h ν)) =O[atTop] h := by
    have := (bT.bigO.mul (isBigO_refl h atTop)).neg_left
    simpa using this
  have ts : Tendsto (fun ν => -(T ν * h ν)) atTop (𝓝 0) := sT.trans_tendsto h0
  have T4 := (Recon.taylor_bigO 4 hf4 x).comp_tendsto ts
  have T' : (fun ν => f (x - T ν * h ν) - (f x - deriv f x * (T ν * h ν) + iteratedDeriv 2 f x * ((T ν * h ν) ^ 2 / 2) - iteratedDeriv 3 f x * ((T ν * h ν) ^ 3 / 6))) =O[atTop] fun ν => h ν ^ 4 := by
    have T1 : (fun ν => f (x - T ν * h ν) - (f x - deriv f x * (T ν * h ν) + iteratedDeriv 2 f x * ((T ν * h ν) ^ 2 / 2) - iteratedDeriv 3 f x * ((T ν * h ν) ^ 3 / 6))) =O[atTop] fun ν => (-(T ν * h ν)) ^ 4 := by
      refine T4.congr (fun ν => ?_) fun ν => rfl
      simp only [Function.comp]
      rw [← sub_eq_add_neg]
      simp only [Finset.sum_range_succ, Finset.sum_range_zero, Recon.taylorCoef, iteratedDeriv_zero, iteratedDeriv_one, Nat.factorial]
      push_cast
      ring
    exact T1.trans (sT.pow 4)
  refine ((key.near 0).sub T').congr' ?_ EventuallyEq.rfl
  filter_upwards [hj 0] with ν hν
  rw [add_zero] at hν ⊢
  have hEn := interior_entire _ (by rw [(hT ν).ghosts]; omega) _ ((hT ν).owned _ hν)
  have e : ρ ν = dens (refRun 1 (Dom ν) (Gr ν).wrap (est ν) (ctrl ν) (prog ν) n (Y ν, dt0 ν)).1.1 (j ν) := by
    simp only [ρ, meshDens]
    rw [(A ν n).1.1 _ _ hEn]
    simp only [sub_add_cancel]
    rfl
  rw [e, eT, eC]
  unfold cub
  push_cast
  ring

/-- **C161 (third order)**: with weights of third order the error after any fixed number of steps is of the fourth power of the cell width, with weights of second order of the third power. -/
theorem run_third_order {B : ℕ → Type} (Gr : ∀ ν, Grid (B ν)) (gh : ℤ) (Dom : ℕ → Pos → Prop) (hT : ∀ ν, Tiles (Gr ν) 1 gh (Dom ν)) (est : ℕ → Pos → (Fin 11 → ℝ) → (Fin 3 → ℝ × ℝ) → ℝ)
    (ctrl : ℕ → ℕ → ℝ → Set ℝ → ℝ) (hg : 3 ≤ gh) (prog : ℕ → ℕ → ℝ → List (Phys ℝ 11)) (l : List ℝ) (hl : ∀ ν k dt, (prog ν k dt).map Phys.beta = l) (ha : advance l = 1) (hb : bend l = 1/2)
    (mem : ∀ ν, ℕ → ℕ → B ν → Mem ℝ 11) (ho : ∀ ν, Complete (Gr ν) (mem ν)) (hB : Background c sol eps G L m M S) {rt : Method} (hrt : rt = .weno5z ∨ rt = .mp5) (hmet : ∀ ν k dt, ∀ P ∈ prog ν k dt, P.rt = rt)
    {C : ℝ} {h : ℕ → ℝ} (h0 : Tendsto h atTop (𝓝 0)) (hp : ∀ ν, 0 < h ν)
    (j : ℕ → ℤ) (hj : ∀ k : ℤ, ∀ᶠ ν in atTop, Dom ν (line (j ν + k))) {f : ℝ → ℝ} {x : ℝ} (hf4 : ContDiff ℝ 4 f) (hf : deriv f x ≠ 0) {A δ : ℝ} (hδ : 0 ≤ δ)
    (n : ℕ) (hm : m ≤ A - spread ^ (l.length * n) * δ) (hM : A + spread ^ (l.length * n) * δ ≤ M)
    (X : ∀ ν, Mesh ℝ 11 (B ν)) (Y : ℕ → Glob ℝ 11) (hX : ∀ ν, Holds (Gr ν) (X ν) (Y ν)) (hY : ∀ ν, IsContact c val G g (A - δ) (A + δ) (Y ν).1) (dt0 : ℕ → ℝ)
    (hP : ∀ ν k, k < n → let dt := (run (Gr ν) (est ν) (ctrl ν) (prog ν) (mem ν) k (X ν, dt0 ν)).2
      ∀ P ∈ prog ν k dt, HighStage c sol small eps val G g L m M S rt C (dt / h ν) (h ν) P)
    (hdens : ∀ k : ℤ, ∀ᶠ ν in atTop, dens (Y ν).1 (j ν + k) = f (x + k * h ν)) :
    let ρ := fun ν => meshDens (Gr ν) (run (Gr ν) (est ν) (ctrl ν) (prog ν) (mem ν) n (X ν, dt0 ν)).1 (j ν)
    let t := fun ν => ∑ k ∈ Finset.range n, (run (Gr ν) (est ν) (ctrl ν) (prog ν) (mem ν) k (X ν, dt0 ν)).2
    twist l = 1/6 → (fun ν => ρ ν - f (x - G.alpha * drift G c 0 * t ν)) =O[atTop] fun ν => h ν ^ 4 := by
  intro ρ t ht
  have key := run_high (small := small) Gr gh Dom hT est ctrl hg prog l hl ha hb mem ho hB hrt hmet h0 hp j hj hf4 hf hδ n hm hM X Y hX hY dt0 hP hdens
  simp only at key
  refine key.congr_left fun ν => ?_
  rw [ht]
  simp only [ρ, t]
  ring

end

/-! ### Example: a wave in the density, moving at three fifths of the speed of light -/

/-- a smooth periodic density with amplitude `e`. -/
noncomputable def wavelet (e x : ℝ) : ℝ := 3/2 + e * Real.sin (2 * Real.pi * x)

theorem wavelet_range (e x : ℝ) (he : 0 ≤ e) : 3/2 - e ≤ wavelet e x ∧ wavelet e x ≤ 3/2 + e := by
  unfold wavelet
  have c := Real.neg_one_le_sin (2 * Real.pi * x)
  have d := Real.sin_le_one (2 * Real.pi * x)
  constructor <;> nlinarith

theorem wavelet_smooth (e : ℝ) : ContDiff ℝ 4 (wavelet e) := by
  unfold wavelet
  have l : ContDiff ℝ 4 fun x : ℝ => 2 * Real.pi * x := contDiff_const.mul contDiff_id
  exact contDiff_const.add (contDiff_const.mul (Real.contDiff_sin.comp l))

theorem wavelet_deriv (e : ℝ) : deriv (wavelet e) (1/2) = -(2 * Real.pi * e) := by
  have l : HasDerivAt (fun y => 2 * Real.pi * y) (2 * Real.pi) (1/2 : ℝ) := by simpa using (hasDerivAt_id (1/2 : ℝ)).const_mul (2 * Real.pi)
  have := ((l.sin.const_mul e).const_add (3/2)).deriv
  unfold wavelet
  rw [this, show 2 * Real.pi * (1/2) = Real.pi by ring, Real.cos_pi]
  ring

/-- start of the example. -/
noncomputable def waveletStart (e : ℝ) (nb nx : ℕ) [NeZero nb] : Mesh ℝ 11 ((d : Fin 3) → Fin ((![nb, 1, 1] : Fin 3 → ℕ) d)) :=
  (fun i q => exSur.cell true C2P.flat 1 (wavelet e (1 / ((nb * nx : ℕ) : ℝ) * (((q 0 + (rippleGrid nb nx).off i 0 : ℤ) : ℝ) + 1/2))), fun _ _ _ => 0)

/-- the stages of the example allow every time step up to a twentieth of a cell. -/
theorem wavelet_stage (rt : Method) (β h dt : ℝ) (hh : 0 < h) (h1 : h ≤ 1) (hβ : 0 ≤ β ∧ β ≤ 1) (hd : 0 ≤ dt ∧ dt ≤ 1/20 * h) :
    HighStage exSur .llf 0 (1/1000) true C2P.flat 1 exLim 1 2 (fun _ => 2) rt 1 (dt / h) h (rippleStage rt β h) := by
  obtain ⟨a, b, c, d, e⟩ := ripple_stage rt β h hh h1 hβ
  refine ⟨a, b, c, ?_, e⟩
  rw [div_mul_cancel₀ _ hh.ne']
  refine ⟨hd.1, ?_⟩
  rw [Fin.sum_univ_three, if_pos (by decide), if_neg (by decide), if_neg (by decide)]
  show 2 * dt * (2 / h + 0 + 0) ≤ 1
  rw [add_zero, add_zero, mul_div_assoc', div_le_one hh]
  linarith [hd.2]

/-- **C161 (concrete)**: the unit interval in `2 ν + 1` cells, cut into blocks of equal size in any way, periodic, WENO5-Z or MP5 with `rk3`; a wave of amplitude `e` in the density.  The steps are chosen by any controller that
keeps them within a twentieth of a cell.  After any fixed number `n` of steps, if the amplitude is small enough, the density of the middle cell is that of the moved wave up to the fourth power of the cell width. -/
theorem ex_run_high (rt : Method) (hrt : rt = .weno5z ∨ rt = .mp5) (nb nx : ℕ → ℕ) [∀ ν, NeZero (nb ν)] (hN : ∀ ν, nb ν * nx ν = 2 * ν + 1) (n : ℕ) (e : ℝ) (he : 0 < e) (hen : spread ^ (3 * n) * e ≤ 1/2)
    (est : ℕ → Pos → (Fin 11 → ℝ) → (Fin 3 → ℝ × ℝ) → ℝ) (ctrl : ℕ → ℕ → ℝ → Set ℝ → ℝ) (dt0 : ℕ → ℝ)
    (hd0 : ∀ ν, 0 ≤ dt0 ν ∧ dt0 ν ≤ 1/20 * (1 / (2 * (ν : ℝ) + 1))) (hct : ∀ ν k dt s, 0 ≤ ctrl ν k dt s ∧ ctrl ν k dt s ≤ 1/20 * (1 / (2 * (ν : ℝ) + 1)))
    (mem : ∀ ν, ℕ → ℕ → ((d : Fin 3) → Fin ((![nb ν, 1, 1] : Fin 3 → ℕ) d)) → Mem ℝ 11) (ho : ∀ ν, Complete (rippleGrid (nb ν) (nx ν)) (mem ν)) :
    let h := fun ν : ℕ => 1 / (2 * (ν : ℝ) + 1)
    let R := fun ν k => run (rippleGrid (nb ν) (nx ν)) (est ν) (ctrl ν) (fun _ _ => [1, 1/4, 2/3].map fun β => rippleStage rt β (h ν)) (mem ν) k (waveletStart e (nb ν) (nx ν), dt0 ν)
    (fun ν => meshDens (rippleGrid (nb ν) (nx ν)) (R ν n).1 ν - wavelet e (1/2 - 3/5 * ∑ k ∈ Finset.range n, (R ν k).2)) =O[atTop] fun ν => h ν ^ 4 := by
  intro h R
  have hp : ∀ ν, 0 < h ν := fun ν => by positivity
  have hle : ∀ ν, h ν ≤ 1 := fun ν => by
    simp only [h]
    rw [div_le_one (by positivity)]
    have : (0:ℝ) ≤ ν := Nat.cast_nonneg ν
    linarith
  have h0 : Tendsto h atTop (𝓝 0) := by
    have : Tendsto (fun ν : ℕ => 2 * (ν : ℝ) + 1) atTop atTop :=
      tendsto_atTop_add_const_right _ _ (tendsto_natCast_atTop_atTop.const_mul_atTop (by norm_num))
    have e : h = (fun ν : ℕ => 2 * (ν : ℝ) + 1)⁻¹ := by funext ν; simp [h]
    rw [e]; exact this.inv_tendsto_atTop
  have hd : C2P.flat.alpha * drift C2P.flat exSur 0 = 3/5 := by
    unfold drift; rw [ex_lorentz]; norm_num [C2P.flat, exSur]
  have hβ : ∀ β ∈ ([1, 1/4, 2/3] : List ℝ), 0 ≤ β ∧ β ≤ 1 := by
    intro β hβ
    simp at hβ
    rcases hβ with rfl | rfl | rfl <;> norm_num
  have hdt : ∀ ν k, 0 ≤ (R ν k).2 ∧ (R ν k).2 ≤ 1/20 * h ν := fun ν k => by
    cases k with
    | zero => exact hd0 ν
    | succ k => exact hct ν _ _ _
  have inst : ∀ ν d, NeZero ((![nb ν, 1, 1] : Fin 3 → ℕ) d) := fun ν d => by fin_cases d <;> simp <;> infer_instance
  have hxs : ∀ ν d, 0 < (![nx ν, 1, 1] : Fin 3 → ℕ) d := fun ν d => by
    have : 0 < nx ν := Nat.pos_of_ne_zero fun h => by have := hN ν; rw [h] at this; omega
    fin_cases d <;> simp [this]
  have hpos : ∀ ν d, 0 < (![nb ν, 1, 1] : Fin 3 → ℕ) d * (![nx ν, 1, 1] : Fin 3 → ℕ) d := fun ν d => Nat.mul_pos (Nat.pos_of_ne_zero (inst ν d).out) (hxs ν d)
  have TT := fun ν => @regular_tiles 1 3 ![nb ν, 1, 1] ![nx ν, 1, 1] (inst ν) (hxs ν) (fun d hd => by fin_cases d <;> simp at hd ⊢) _ (wrapPeriodic_box _ (hpos ν))
  have hNh : ∀ ν, 1 / ((nb ν * nx ν : ℕ) : ℝ) = h ν := fun ν => by rw [hN]; simp only [h]; push_cast; rfl
  have key := run_third_order (small := 0) (fun ν => rippleGrid (nb ν) (nx ν)) 3 _ TT est ctrl le_rfl (fun ν _ _ => [1, 1/4, 2/3].map fun β => rippleStage rt β (h ν)) [1, 1/4, 2/3]
    (fun ν _ _ => rfl) advance_schemes.2.2.1 bend_schemes.2.2.1 mem ho ex_background hrt
    (fun ν _ _ P hP => by obtain ⟨β, _, rfl⟩ := List.mem_map.1 hP; rfl) (C := 1) h0 hp
    (fun ν => (ν : ℤ)) (fun k => by
      filter_upwards [eventually_ge_atTop k.natAbs] with ν hν d
      fin_cases d
      · simp only [line]
        have e : ((![nb ν, 1, 1] : Fin 3 → ℕ) 0 * (![nx ν, 1, 1] : Fin 3 → ℕ) 0 : ℕ) = 2 * ν + 1 := hN ν
        constructor
        · simp; omega
        · show (ν : ℤ) + k < (((![nb ν, 1, 1] : Fin 3 → ℕ) 0 * (![nx ν, 1, 1] : Fin 3 → ℕ) 0 : ℕ) : ℤ)
          rw [e]; push_cast; omega
      · simp [line]
      · simp [line])
    (x := 1/2) (wavelet_smooth e) (by rw [wavelet_deriv]; exact neg_ne_zero.2 (by positivity)) (A := 3/2) (δ := e) he.le n (by
      show (1:ℝ) ≤ 3/2 - spread ^ (3 * n) * e
      linarith) (by
      show 3/2 + spread ^ (3 * n) * e ≤ (2:ℝ)
      linarith)
    (fun ν => waveletStart e (nb ν) (nx ν)) (fun ν => (fun p => exSur.cell true C2P.flat 1 (wavelet e (h ν * ((p 0 : ℝ) + 1/2))), fun _ _ => 0))
    (fun ν => ⟨fun i q _ => by simp only [waveletStart]; rw [hNh], fun _ _ _ _ => rfl⟩) (fun ν p => ⟨_, (wavelet_range e _ he.le).1, (wavelet_range e _ he.le).2, rfl⟩) dt0
    (fun ν k _ P hP => by
      obtain ⟨β, hb, rfl⟩ := List.mem_map.1 hP
      exact wavelet_stage rt β (h ν) _ (hp ν) (hle ν) (hβ β hb) (hdt ν k))
    (fun k => Eventually.of_forall fun ν => by
      show wavelet e _ = wavelet e _
      congr 1
      simp only [line, h]
      push_cast
      have : (0:ℝ) < 2 * (ν : ℝ) + 1 := by positivity
      field_simp
      ring)
  simp only [hd] at key
  exact key twist_schemes.2.2.1

end Phoebus.Step
