import Verif.Step.Contact
import Verif.Step.Carry
import Verif.Step.Truncation

/-!
# A moving contact converges over any finite time (C155)

The run of the code in one dimension with a contact as initial data: the densities it computes converge to the profile carried along with the flow.
-/
namespace Phoebus.Step
open FluxSweep Geom Riemann Rel Carry

/-! ### The line of cells -/

/-- cell `i` of a one-dimensional mesh. -/
def line (i : ℤ) : Pos := ![i, 0, 0]

/-- densities along the line. -/
def dens (X : Fields ℝ 11) (i : ℤ) : ℝ := (X (line i)).2 0

/-- difference across a cell of the reconstructed density, reconstruction.hpp:111-123. -/
noncomputable def slope (rt : Method) (r : ℤ → ℝ) (i : ℤ) : ℝ := if rt = .constant then 0 else Recon.mc (r i - r (i - 1)) (r (i + 1) - r i) (3/2)

/-- bound for the ratio of this difference to the difference to a neighbour. -/
noncomputable def ratio (rt : Method) : ℝ := if rt = .constant then 0 else 3/2

theorem line_add (i k : ℤ) : (fun e => line i e + k * unit 0 e) = line (i + k) := by
  funext e; fin_cases e <;> simp [line, unit]

theorem mc_limited (a b : ℝ) : ∃ x y, 0 ≤ x ∧ x ≤ 3/2 ∧ 0 ≤ y ∧ y ≤ 3/2 ∧ Recon.mc a b (3/2) = x * a ∧ Recon.mc a b (3/2) = y * b := by
  have pos : ∀ a b : ℝ, 0 < a → 0 < b → ∃ x y, 0 ≤ x ∧ x ≤ 3/2 ∧ 0 ≤ y ∧ y ≤ 3/2 ∧ min ((a + b) / 2) (3/2 * min a b) = x * a ∧ min ((a + b) / 2) (3/2 * min a b) = y * b := by
    intro a b ha hb
    have h0 : 0 ≤ min ((a + b) / 2) (3/2 * min a b) := le_min (by linarith) (by have := le_min ha.le hb.le; linarith)
    have h1 : min ((a + b) / 2) (3/2 * min a b) ≤ 3/2 * a := (min_le_right _ _).trans (by have := min_le_left a b; linarith)
    have h2 : min ((a + b) / 2) (3/2 * min a b) ≤ 3/2 * b := (min_le_right _ _).trans (by have := min_le_right a b; linarith)
    exact ⟨_ / a, _ / b, div_nonneg h0 ha.le, (div_le_iff₀ ha).2 h1, div_nonneg h0 hb.le, (div_le_iff₀ hb).2 h2, (div_mul_cancel₀ _ ha.ne').symm, (div_mul_cancel₀ _ hb.ne').symm⟩
  rcases le_or_gt (a * b) 0 with h | h
  · exact ⟨0, 0, le_rfl, by norm_num, le_rfl, by norm_num, by rw [Recon.mc_nonpos (by norm_num) h, zero_mul], by rw [Recon.mc_nonpos (by norm_num) h, zero_mul]⟩
  · rcases mul_pos_iff.1 h with ⟨ha, hb⟩ | ⟨ha, hb⟩
    · rw [Recon.mc_pos (by norm_num) ha hb]; exact pos a b ha hb
    · rw [Recon.mc_neg (by norm_num) ha hb]
      obtain ⟨x, y, x0, x1, y0, y1, e1, e2⟩ := pos (-a) (-b) (by linarith) (by linarith)
      exact ⟨x, y, x0, x1, y0, y1, by rw [e1]; ring, by rw [e2]; ring⟩

theorem slope_limited (rt : Method) (r : ℤ → ℝ) : Limited (ratio rt) r (slope rt r) := by
  intro i
  unfold ratio slope
  split_ifs
  · exact ⟨0, 0, le_rfl, le_rfl, le_rfl, le_rfl, by ring, by ring⟩
  · exact mc_limited _ _

theorem ratio_range (rt : Method) : 0 ≤ ratio rt ∧ ratio rt ≤ 2 := by unfold ratio; split_ifs <;> norm_num

theorem slope_per {N : ℕ} (rt : Method) {r : ℤ → ℝ} (h : Per N r) : Per N (slope rt r) := by
  intro i
  unfold slope
  have h1 := h (i - 1)
  have h2 := h (i + 1)
  rw [show i - 1 + (N : ℤ) = i + N - 1 by ring] at h1
  rw [show i + 1 + (N : ℤ) = i + N + 1 by ring] at h2
  rw [h i, h1, h2]

theorem per_mul {N : ℕ} {r : ℤ → ℝ} (h : Per N r) (i k : ℤ) : r (i + k * N) = r i := by
  induction k using Int.induction_on with
  | zero => simp
  | succ k ih =>
    rw [← ih, ← h (i + k * N)]; congr 1; ring
  | pred k ih =>
    rw [← ih, ← h (i + (-k - 1) * N)]; congr 1; ring

theorem dens_edges (P : Phys ℝ 11) (hr : P.rt = .constant ∨ P.rt = .linear) (r : Pos → ℝ) (i : ℤ) :
    densL P r 0 (line i) = r (line (i - 1)) + slope P.rt (fun j => r (line j)) (i - 1) / 2 ∧ densR P r 0 (line i) = r (line i) - slope P.rt (fun j => r (line j)) i / 2 := by
  unfold densL densR slope
  simp only [line_add]
  rcases hr with h | h
  · rw [h]; simp only [kernel, Recon.piecewiseConstant]
    rw [show i + ((0:ℤ) - 1) = i - 1 by ring]
    simp
  · rw [h]; simp only [kernel, Recon.piecewiseLinear, reduceCtorEq, if_false]
    rw [show i + ((0:ℤ) - 1) = i - 1 by ring, show i + ((-1:ℤ) - 1) = i - 1 - 1 by ring, show i + ((1:ℤ) - 1) = i - 1 + 1 by ring, show i + (-1:ℤ) = i - 1 by ring, add_zero]
    exact ⟨by ring, by ring⟩

theorem carried_line (P : Phys ℝ 11) (hr : P.rt = .constant ∨ P.rt = .linear) (dt : ℝ) (a : Fin 3 → ℝ) (σ : Fin 3 → ℝ → ℝ → ℝ) (r0 r : Pos → ℝ) (i : ℤ) :
    let s := fun j => σ 0 (densL P r 0 (line j)) (densR P r 0 (line j))
    let F := sweep (a 0) s (fun j => r (line j)) (slope P.rt fun j => r (line j))
    carried P 1 dt a σ r0 r (line i) = P.beta * (r (line i) - dt / P.dx 0 * (F (i + 1) - F i)) + (1 - P.beta) * r0 (line i) := by
  intro s F
  unfold carried
  simp only
  rw [Fin.sum_univ_three]
  have e : (fun e => line i e + unit 0 e) = line (i + 1) := by rw [← line_add]; simp
  rw [e]
  have hF : ∀ j, (a 0 + σ 0 (densL P r 0 (line j)) (densR P r 0 (line j))) * densL P r 0 (line j) - σ 0 (densL P r 0 (line j)) (densR P r 0 (line j)) * densR P r 0 (line j) = F j := by
    intro j
    simp only [F, s, sweep]
    obtain ⟨h1, h2⟩ := dens_edges P hr r j
    rw [← h1, ← h2]
  rw [hF, hF, if_pos (by decide), if_neg (by decide), if_neg (by decide)]
  ring

/-! ### One stage, one step -/

/-- Courant condition of the claim in one dimension: with constant reconstruction the number is 1/2, with linear reconstruction 2/13. -/
def FrontCourant (S : ℝ) (P : Phys ℝ 11) (dt : ℝ) : Prop := 0 ≤ dt ∧ dt * S * (if P.rt = .constant then 2 else 13/2) ≤ P.dx 0

section
variable {c : Surround} {sol : MeshRun.Solver} {small eps : ℝ} {val : Bool} {G : ADM ℝ} {g : ℝ} {L : Limits} {m M : ℝ} {S : Fin 3 → ℝ}
variable {f V : ℝ → ℝ} {len TV h x0 : ℝ} {N : ℕ}

theorem FrontCourant.half {P : Phys ℝ 11} {dt : ℝ} (hw : 0 < P.dx 0) (hS : 0 ≤ S 0) (hc : FrontCourant (S 0) P dt) : HalfCourant 1 S P dt := by
  obtain ⟨h0, h1⟩ := hc
  refine ⟨h0, ?_⟩
  rw [Fin.sum_univ_three]
  simp
  rw [mul_div_assoc', div_le_one hw]
  refine le_trans ?_ h1
  have := mul_nonneg h0 hS
  split_ifs <;> nlinarith

theorem Background.speed_nonneg (hB : Background c sol eps G L m M S) : 0 ≤ S 0 := by
  have hw0 := hB.speed 0 m m le_rfl hB.order le_rfl hB.order
  refine le_trans ?_ hw0
  rw [faceState_prims]
  unfold numSpeed
  cases sol with
  | llf =>
    simp only [Timestep.llfSpeed]
    have := speeds_lt eps hB.epsr.1 hB.epsr.2 hB.pos hB.lapse c.g1 _ (hB.inactive m le_rfl hB.order) 0
    rcases le_or_gt 0 (MeshRun.codeSpeeds eps G L c.g1 (c.prim m) 0).2 with h1 | h1
    · exact h1.trans ((le_max_right _ _).trans (le_max_left _ _))
    · exact (by linarith : (0:ℝ) ≤ -(MeshRun.codeSpeeds eps G L c.g1 (c.prim m) 0).1).trans ((le_max_left _ _).trans (le_max_left _ _))
  | hll =>
    simp only [Timestep.hllSpeed]
    exact (le_max_right _ _).trans (le_max_right _ _)

/-- one stage of the code follows the profile. -/
theorem stage_front (hB : Background c sol eps G L m M S) (hf : Profile f V len TV) (hh : 0 < h) (hL : len = N * h) {μ : ℝ} (hm : |μ - amount f len| ≤ h * TV)
    (P : Phys ℝ 11) (hP : ContactStage c sol small eps val G g L m M P) (hdx : P.dx 0 = h) (dt : ℝ) (hdt : FrontCourant (S 0) P dt) (wrap : Pos → Pos)
    (hw : ∀ i, ∃ k : ℤ, wrap (line i) = line (i + k * N)) (base cur : Fields ℝ 11) (hb : IsContact c val G g m M base) (hc : IsContact c val G g m M cur)
    {t τ e0 e : ℝ} {K : ℕ} (T0 : Tracks f N h x0 (G.alpha * drift G c 0) TV μ t e0 (dens base))
    (T1 : Tracks f N h x0 (G.alpha * drift G c 0) TV μ (t + τ * dt) e (dens cur)) (hτ0 : 0 ≤ τ) (hτ : τ + 1 ≤ K) :
    IsContact c val G g m M (refFields 1 wrap dt base cur P) ∧
      Tracks f N h x0 (G.alpha * drift G c 0) TV μ (t + P.beta * (τ + 1) * dt) (P.beta * e + (1 - P.beta) * e0 + 8 * K ^ 2 * (dt * S 0 * TV)) (dens (refFields 1 wrap dt base cur P)) := by
  have hS : 0 ≤ S 0 := hB.speed_nonneg
  have hHC := hdt.half (hdx ▸ hh) hS
  obtain ⟨σ, hσ, hst⟩ := stage_density hB P hP 1 dt hHC wrap base cur hb hc
  refine ⟨fun p => ⟨_, hst p⟩, ?_⟩
  have per0 : Per N (dens base) := T0.1
  have per1 : Per N (dens cur) := T1.1
  set r : Pos → ℝ := fun q => (cur q).2 0 with hr
  set r0 : Pos → ℝ := fun q => (base q).2 0 with hr0
  have dc : (fun j => r (line j)) = dens cur := rfl
  have db : (fun j => r0 (line j)) = dens base := rfl
  set s : ℤ → ℝ := fun j => σ 0 (densL P r 0 (line j)) (densR P r 0 (line j)) with hs
  have psl := slope_per P.rt per1
  have edges := dens_edges P hP.recon r
  have hrange : ∀ p, m ≤ r p ∧ r p ≤ M := by
    intro p
    obtain ⟨ρ, h1, h2, h3⟩ := hc p
    simp only [hr, h3]
    exact ⟨h1, h2⟩
  have pL : Per N (fun j => densL P r 0 (line j)) := fun j => by
    simp only
    rw [(edges _).1, (edges _).1, dc]
    have a := per1 (j - 1)
    have b := psl (j - 1)
    rw [show j - 1 + (N : ℤ) = j + N - 1 by ring] at a b
    have : ∀ i, r (line i) = dens cur i := fun _ => rfl
    rw [this, this, a, b]
  have pR : Per N (fun j => densR P r 0 (line j)) := fun j => by
    simp only
    rw [(edges _).2, (edges _).2, dc]
    have : ∀ i, r (line i) = dens cur i := fun _ => rfl
    rw [this, this, per1, psl]
  have ps : Per N s := fun j => by
    have a := pL j
    have b := pR j
    simp only at a b
    simp only [hs]
    rw [a, b]
  have key := hf.stage_tracks (x0 := x0) hh hL (z := ratio P.rt) (S := S 0) (σ := s) (s := slope P.rt (dens cur)) hm T0 T1 hP.weight.1 hP.weight.2 hdt.1 hτ0 hτ ps psl
    (ratio_range _).1 (ratio_range _).2 (slope_limited _ _)
    (fun j => hσ 0 _ _ (kernel_edges P.ew P.em P.rt hP.recon _ m M fun k => hrange _).1 (kernel_edges P.ew P.em P.rt hP.recon _ m M fun k => hrange _).2.1)
    (by
      have := hdt.2
      rw [hdx] at this
      rw [div_mul_eq_mul_div, div_mul_eq_mul_div, div_le_one hh]
      refine le_trans (le_of_eq ?_) this
      unfold ratio
      split_ifs <;> norm_num)
  have hnew : dens (refFields 1 wrap dt base cur P) =
      fun i => P.beta * (dens cur i - dt / h * (sweep (G.alpha * drift G c 0) s (dens cur) (slope P.rt (dens cur)) (i + 1) -
        sweep (G.alpha * drift G c 0) s (dens cur) (slope P.rt (dens cur)) i)) + (1 - P.beta) * dens base i := by
    funext i
    obtain ⟨k, hk⟩ := hw i
    have hperF := sweep_per (w := G.alpha * drift G c 0) ps per1 psl
    unfold dens
    rw [(hst (line i)).2.2, hk]
    show carried P 1 dt (fun d => G.alpha * drift G c d) σ r0 r (line (i + k * N)) = _
    rw [carried_line P hP.recon, dc, hdx]
    have q0 : r (line (i + k * N)) = dens cur i := per_mul per1 i k
    have q1 : r0 (line (i + k * N)) = dens base i := per_mul per0 i k
    have q2 := per_mul hperF i k
    have q3 := per_mul hperF (i + 1) k
    rw [show i + 1 + k * (N:ℤ) = i + k * N + 1 by ring] at q3
    rw [q0, q1, q2, q3]
    rfl
  rw [hnew]
  exact key

/-- the advance through a list of stages. -/
noncomputable def reach (l : List (Phys ℝ 11)) (τ : ℝ) : ℝ := l.foldl (fun a P => P.beta * (a + 1)) τ

theorem reach_advance (l : List (Phys ℝ 11)) : reach l 0 = advance (l.map Phys.beta) := by
  unfold reach advance
  rw [List.foldl_map]

theorem steps_front (hB : Background c sol eps G L m M S) (hf : Profile f V len TV) (hh : 0 < h) (hL : len = N * h) {μ : ℝ} (hm : |μ - amount f len| ≤ h * TV)
    (dt : ℝ) (wrap : Pos → Pos) (hw : ∀ i, ∃ k : ℤ, wrap (line i) = line (i + k * N)) (base : Fields ℝ 11) (hb : IsContact c val G g m M base)
    {t e0 : ℝ} (K : ℕ) (T0 : Tracks f N h x0 (G.alpha * drift G c 0) TV μ t e0 (dens base)) (hI : 0 ≤ dt * S 0 * TV) (l : List (Phys ℝ 11)) :
    (∀ P ∈ l, ContactStage c sol small eps val G g L m M P ∧ P.dx 0 = h ∧ FrontCourant (S 0) P dt) →
    ∀ (cur : Glob ℝ 11) (τ e : ℝ) (s : ℕ), IsContact c val G g m M cur.1 → Tracks f N h x0 (G.alpha * drift G c 0) TV μ (t + τ * dt) e (dens cur.1) → 0 ≤ τ → τ ≤ s →
      s + l.length ≤ K → e0 ≤ e →
      IsContact c val G g m M (l.foldl (refStage 1 wrap dt base) cur).1 ∧
        Tracks f N h x0 (G.alpha * drift G c 0) TV μ (t + reach l τ * dt) (e + l.length * (8 * K ^ 2 * (dt * S 0 * TV))) (dens (l.foldl (refStage 1 wrap dt base) cur).1) := by
  induction l with
  | nil => intro _ cur τ e s hc hT _ _ _ _; simpa [reach] using ⟨hc, hT⟩
  | cons P l ih =>
    intro hPs cur τ e s hc hT hτ0 hτs hs he
    obtain ⟨hP, hdx, hC⟩ := hPs P (by simp)
    rw [List.length_cons] at hs
    have hsK : (s : ℝ) + 1 ≤ K := by
      have : s + 1 ≤ K := by omega
      exact_mod_cast this
    obtain ⟨c1, t1⟩ := stage_front hB hf hh hL hm P hP hdx dt hC wrap hw base cur.1 hb hc T0 hT hτ0 (by linarith : τ + 1 ≤ (K:ℝ))
    obtain ⟨b0, b1⟩ := hP.weight
    have hQ : 0 ≤ 8 * (K:ℝ) ^ 2 * (dt * S 0 * TV) := by positivity
    have t2 : Tracks f N h x0 (G.alpha * drift G c 0) TV μ (t + P.beta * (τ + 1) * dt) (e + 8 * K ^ 2 * (dt * S 0 * TV)) (dens (refFields 1 wrap dt base cur.1 P)) := by
      obtain ⟨u1, u2, R, u3, u4, u5⟩ := t1
      refine ⟨u1, u2, R, u3, u4, u5.trans ?_⟩
      nlinarith
    have := ih (fun P' h' => hPs P' (List.mem_cons_of_mem _ h')) (refStage 1 wrap dt base cur P) (P.beta * (τ + 1)) _ (s + 1) c1 t2 (by positivity)
      (by push_cast; nlinarith) (by omega) (by linarith)
    rw [List.foldl_cons]
    refine ⟨this.1, ?_⟩
    have h2 := this.2
    rw [show e + ((P :: l).length : ℝ) * (8 * (K:ℝ) ^ 2 * (dt * S 0 * TV)) = e + 8 * K ^ 2 * (dt * S 0 * TV) + l.length * (8 * K ^ 2 * (dt * S 0 * TV)) by
      rw [List.length_cons]; push_cast; ring]
    exact h2

/-! ### The run -/

/-- **C155**: in one dimension, on a periodic mesh of `N` cells of width `h` cut into blocks in any way, with any schedule and memory, LLF or HLL, constant or linear
reconstruction, any Runge-Kutta weights, time steps chosen in any way within the Courant condition: a contact whose density is the profile `f` at the cell centres.
After `n` steps the state is a contact, and its densities are the averages over the cells of `f` moved by the distance `w t`, up to an error that is, summed over all cells,
at most `TV (3 k h + h + 2 (len + 8 K³ S T) / k)` for every `k`.  `w` is the coordinate velocity of the matter, `T` the sum of the time steps, and `t` the sum of the time steps each multiplied by the
`advance` of its weights. -/
theorem run_front {B : Type} (Gr : Grid B) (gh : ℤ) (Dom : Pos → Prop) (hT : Tiles Gr 1 gh Dom) (est : Pos → (Fin 11 → ℝ) → (Fin 3 → ℝ × ℝ) → ℝ)
    (ctrl : ℕ → ℝ → Set ℝ → ℝ) (prog : ℕ → ℝ → List (Phys ℝ 11)) (hg0 : 0 ≤ gh) (hg : ∀ n dt, ∀ P ∈ prog n dt, 1 + radius P.rt ≤ gh)
    (mem : ℕ → ℕ → B → Mem ℝ 11) (ho : Complete Gr mem) (hB : Background c sol eps G L m M S)
    (hP : ∀ k dt, ∀ P ∈ prog k dt, ContactStage c sol small eps val G g L m M P ∧ P.dx 0 = h) (K : ℕ) (hK : ∀ k dt, (prog k dt).length ≤ K)
    (hDom : ∀ j : ℕ, j < N → Dom (line j)) (hw : ∀ i, ∃ k : ℤ, Gr.wrap (line i) = line (i + k * N))
    (hf : Profile f V len TV) (hfm : ∀ x, m ≤ f x ∧ f x ≤ M) (hh : 0 < h) (hL : len = N * h) (a : ℝ)
    (X : Mesh ℝ 11 B) (dt : ℝ) (hX : ∀ i q, (Gr.shape i).Entire q → X.1 i q = c.cell val G g (f (a + h * ((q 0 + Gr.off i 0 : ℤ) : ℝ) + h / 2)))
    (fs : Fin 3 → Pos → ℝ) (hfs : ∀ i d p, Used (Gr.shape i) d p → X.2 i d p = fs d fun e => p e + Gr.off i e)
    (hdt : ∀ k, ∀ P ∈ prog k (run Gr est ctrl prog mem k (X, dt)).2, FrontCourant (S 0) P (run Gr est ctrl prog mem k (X, dt)).2)
    (hdt0 : ∀ k, 0 ≤ (run Gr est ctrl prog mem k (X, dt)).2) (n : ℕ) :
    let R := fun k => run Gr est ctrl prog mem k (X, dt)
    let t := ∑ k ∈ Finset.range n, advance ((prog k (R k).2).map Phys.beta) * (R k).2
    let T := ∑ k ∈ Finset.range n, (R k).2
    let w := G.alpha * drift G c 0
    ∃ ρ : ℕ → ℝ, (∀ j < N, (R n).1.1 (Gr.own (line j)) (fun e => line j e - Gr.off (Gr.own (line j)) e) = c.cell val G g (ρ j)) ∧
      ∀ k : ℕ, 0 < k → ∑ j ∈ Finset.range N, |h * ρ j - ∫ x in (a + h * j)..(a + h * (j + 1)), f (x - w * t)| ≤
        TV * (3 * k * h + h + 2 * (len + 8 * K ^ 3 * S 0 * T) / k) := by
  intro R t T w
  have hlen : 0 ≤ len := by rw [hL]; positivity
  have hTV := hf.tv_nonneg hlen
  have hS : 0 ≤ S 0 := hB.speed_nonneg
  let Y : Glob ℝ 11 := (fun p => c.cell val G g (sampled f (a + h) h (p 0)), fs)
  have hs : ∀ i : ℤ, sampled f (a + h) h i = f (a + h * i + h / 2) := fun i => by unfold sampled; congr 1; ring
  have hH : Holds Gr X Y := ⟨fun i q hq => by rw [hX i q hq]; simp only [Y]; rw [hs], hfs⟩
  have hY : IsContact c val G g m M Y.1 := fun p => ⟨_, (hfm _).1, (hfm _).2, rfl⟩
  have A := run_holds Gr 1 gh Dom hT est ctrl prog hg0 hg mem ho X Y dt hH
  obtain ⟨μ, hμ, hstart⟩ := hf.start (x0 := a + h) (w := w) hh hL
  have key : ∀ k, IsContact c val G g m M (refRun 1 Dom Gr.wrap est ctrl prog k (Y, dt)).1.1 ∧
      Tracks f N h (a + h) w TV μ (∑ i ∈ Finset.range k, advance ((prog i (R i).2).map Phys.beta) * (R i).2)
        (len * TV + 8 * K ^ 3 * S 0 * TV * ∑ i ∈ Finset.range k, (R i).2) (dens (refRun 1 Dom Gr.wrap est ctrl prog k (Y, dt)).1.1) := by
    intro k
    induction k with
    | zero => simpa using ⟨hY, hstart⟩
    | succ k ih =>
      have hdk := hdt k
      have hd0 := hdt0 k
      have eR : (R k).2 = (refRun 1 Dom Gr.wrap est ctrl prog k (Y, dt)).2 := (A k).2
      rw [(A k).2] at hdk hd0
      simp only [refRun]
      set Z := refRun 1 Dom Gr.wrap est ctrl prog k (Y, dt)
      unfold refStep
      obtain ⟨i1, i2⟩ := ih
      have hI : 0 ≤ Z.2 * S 0 * TV := by positivity
      have := steps_front (small := small) hB hf hh hL hμ Z.2 Gr.wrap hw Z.1.1 i1 K i2 hI (prog k Z.2)
        (fun P h' => ⟨(hP k _ P h').1, (hP k _ P h').2, hdk P h'⟩) Z.1 0 _ 0 i1 (by simpa using i2) le_rfl (by simp) (by simpa using hK k Z.2) le_rfl
      refine ⟨this.1, ?_⟩
      obtain ⟨u1, u2, Q, u3, u4, u5⟩ := this.2
      rw [Finset.sum_range_succ, Finset.sum_range_succ, eR, ← reach_advance]
      refine ⟨u1, u2, Q, u3, u4, u5.trans ?_⟩
      have hl : ((prog k Z.2).length : ℝ) ≤ K := by exact_mod_cast hK k Z.2
      have : 0 ≤ 8 * (K:ℝ) ^ 2 * (Z.2 * S 0 * TV) := by positivity
      nlinarith [mul_le_mul_of_nonneg_right hl this]
  obtain ⟨k1, k2⟩ := key n
  refine ⟨fun j => dens (refRun 1 Dom Gr.wrap est ctrl prog n (Y, dt)).1.1 j, fun j hj => ?_, fun k hk => ?_⟩
  · have hI := hT.owned _ (hDom j hj)
    have hEn : (Gr.shape (Gr.own (line j))).Entire fun e => line j e - Gr.off (Gr.own (line j)) e := interior_entire _ (by rw [hT.ghosts]; exact hg0) _ hI
    show (run Gr est ctrl prog mem n (X, dt)).1.1 _ _ = _
    rw [(A n).1.1 _ _ hEn]
    simp only [sub_add_cancel]
    obtain ⟨ρ, -, -, e⟩ := k1 (line j)
    unfold dens
    show (refRun 1 Dom Gr.wrap est ctrl prog n (Y, dt)).1.1 (line j) = _
    rw [e]; rfl
  · have := hf.close hh hL hμ k2 k hk
    unfold total at this
    refine le_trans (le_of_eq ?_) (this.trans (le_of_eq ?_))
    · refine Finset.sum_congr rfl fun j _ => ?_
      congr 2
      rw [intervalIntegral.integral_comp_sub_right (fun x => f x)]
      congr 1 <;> (push_cast; ring)
    · simp only [T]; ring

/-- **C155 (rate)**: so the summed error is at most a fixed multiple of the square root of the cell width. -/
theorem run_front_rate {B : Type} (Gr : Grid B) (gh : ℤ) (Dom : Pos → Prop) (hT : Tiles Gr 1 gh Dom) (est : Pos → (Fin 11 → ℝ) → (Fin 3 → ℝ × ℝ) → ℝ)
    (ctrl : ℕ → ℝ → Set ℝ → ℝ) (prog : ℕ → ℝ → List (Phys ℝ 11)) (hg0 : 0 ≤ gh) (hg : ∀ n dt, ∀ P ∈ prog n dt, 1 + radius P.rt ≤ gh)
    (mem : ℕ → ℕ → B → Mem ℝ 11) (ho : Complete Gr mem) (hB : Background c sol eps G L m M S)
    (hP : ∀ k dt, ∀ P ∈ prog k dt, ContactStage c sol small eps val G g L m M P ∧ P.dx 0 = h) (K : ℕ) (hK : ∀ k dt, (prog k dt).length ≤ K)
    (hDom : ∀ j : ℕ, j < N → Dom (line j)) (hw : ∀ i, ∃ k : ℤ, Gr.wrap (line i) = line (i + k * N))
    (hf : Profile f V len TV) (hfm : ∀ x, m ≤ f x ∧ f x ≤ M) (hh : 0 < h) (hh1 : h ≤ 1) (hL : len = N * h) (a : ℝ)
    (X : Mesh ℝ 11 B) (dt : ℝ) (hX : ∀ i q, (Gr.shape i).Entire q → X.1 i q = c.cell val G g (f (a + h * ((q 0 + Gr.off i 0 : ℤ) : ℝ) + h / 2)))
    (fs : Fin 3 → Pos → ℝ) (hfs : ∀ i d p, Used (Gr.shape i) d p → X.2 i d p = fs d fun e => p e + Gr.off i e)
    (hdt : ∀ k, ∀ P ∈ prog k (run Gr est ctrl prog mem k (X, dt)).2, FrontCourant (S 0) P (run Gr est ctrl prog mem k (X, dt)).2)
    (hdt0 : ∀ k, 0 ≤ (run Gr est ctrl prog mem k (X, dt)).2) (n : ℕ) :
    let R := fun k => run Gr est ctrl prog mem k (X, dt)
    let t := ∑ k ∈ Finset.range n, advance ((prog k (R k).2).map Phys.beta) * (R k).2
    let T := ∑ k ∈ Finset.range n, (R k).2
    let w := G.alpha * drift G c 0
    ∃ ρ : ℕ → ℝ, (∀ j < N, (R n).1.1 (Gr.own (line j)) (fun e => line j e - Gr.off (Gr.own (line j)) e) = c.cell val G g (ρ j)) ∧
      ∑ j ∈ Finset.range N, |h * ρ j - ∫ x in (a + h * j)..(a + h * (j + 1)), f (x - w * t)| ≤ TV * (7 + 2 * (len + 8 * K ^ 3 * S 0 * T)) * Real.sqrt h := by
  intro R t T w
  obtain ⟨ρ, h1, h2⟩ := run_front (small := small) Gr gh Dom hT est ctrl prog hg0 hg mem ho hB hP K hK hDom hw hf hfm hh hL a X dt hX fs hfs hdt hdt0 n
  refine ⟨ρ, h1, ?_⟩
  have hq : 0 < Real.sqrt h := Real.sqrt_pos.2 hh
  have hq2 : Real.sqrt h * Real.sqrt h = h := Real.mul_self_sqrt hh.le
  have hq1 : Real.sqrt h ≤ 1 := by rw [Real.sqrt_le_left (by norm_num)]; linarith
  have hlen : 0 ≤ len := by rw [hL]; positivity
  have hTV := hf.tv_nonneg hlen
  set k : ℕ := ⌈1 / Real.sqrt h⌉₊ with hk
  have hk0 : 0 < k := Nat.ceil_pos.2 (by positivity)
  have k1 : 1 / Real.sqrt h ≤ k := Nat.le_ceil _
  have k2 : (k : ℝ) < 1 / Real.sqrt h + 1 := Nat.ceil_lt_add_one (by positivity)
  refine (h2 k hk0).trans ?_
  have hkR : (0:ℝ) < k := by exact_mod_cast hk0
  set E := len + 8 * (K:ℝ) ^ 3 * S 0 * T with hE
  have a1 : (k : ℝ) * h ≤ Real.sqrt h + h := by
    have := mul_le_mul_of_nonneg_right k2.le hh.le
    have e : (1 / Real.sqrt h + 1) * h = Real.sqrt h + h := by
      have e1 : 1 / Real.sqrt h * h = Real.sqrt h := by rw [div_mul_eq_mul_div, one_mul, div_eq_iff hq.ne', hq2]
      rw [add_mul, e1, one_mul]
    linarith
  have a2 : h ≤ Real.sqrt h := by nlinarith
  have a3 : 1 / (k : ℝ) ≤ Real.sqrt h := by
    rw [div_le_iff₀ hkR]
    have := mul_le_mul_of_nonneg_left k1 hq.le
    rwa [mul_one_div_cancel hq.ne'] at this
  have hEn : 0 ≤ E := by
    have hT0 : 0 ≤ T := Finset.sum_nonneg fun k _ => hdt0 k
    have hS : 0 ≤ S 0 := hB.speed_nonneg
    positivity
  rw [mul_assoc TV]
  refine mul_le_mul_of_nonneg_left ?_ hTV
  have a4 : 2 * E / k ≤ 2 * E * Real.sqrt h := by
    rw [div_eq_mul_one_div]; exact mul_le_mul_of_nonneg_left a3 (by linarith)
  nlinarith

end

/-! ### Example: a top hat moving at three fifths of the speed of light -/

/-- density 2 in the first half of the unit interval, 1 in the second, repeated. -/
noncomputable def hat (x : ℝ) : ℝ := if ⌊2 * x⌋ % 2 = 0 then 2 else 1

theorem hat_profile : Profile hat (fun x => (⌊2 * x⌋ : ℝ)) 1 2 := by
  have hm : Monotone fun x : ℝ => ((⌊2 * x⌋ : ℤ) : ℝ) := fun x y hxy => by
    have : ⌊2 * x⌋ ≤ ⌊2 * y⌋ := Int.floor_le_floor (by linarith)
    show ((⌊2 * x⌋ : ℤ) : ℝ) ≤ ((⌊2 * y⌋ : ℤ) : ℝ)
    exact_mod_cast this
  have ht : ∀ x : ℝ, ⌊2 * (x + 1)⌋ = ⌊2 * x⌋ + 2 := fun x => by
    rw [show 2 * (x + 1) = 2 * x + (2 : ℤ) by push_cast; ring, Int.floor_add_intCast]
  refine ⟨hm, fun x y hxy => ?_, fun x => ?_, fun x => ?_⟩
  · have h1 : ⌊2 * x⌋ ≤ ⌊2 * y⌋ := Int.floor_le_floor (by linarith)
    rcases h1.eq_or_lt with h | h
    · unfold hat; rw [h]; simp
    · have h2 : (1:ℝ) ≤ (⌊2 * y⌋ : ℝ) - ⌊2 * x⌋ := by
        have : 1 ≤ ⌊2 * y⌋ - ⌊2 * x⌋ := by omega
        exact_mod_cast this
      refine le_trans ?_ h2
      unfold hat
      split_ifs <;> norm_num
  · unfold hat
    rw [ht, Int.add_emod_right]
  · simp only [ht]; push_cast; ring

theorem hat_range (x : ℝ) : 1 ≤ hat x ∧ hat x ≤ 2 := by unfold hat; split_ifs <;> norm_num

/-- a stage of the example: as `exMove`, with weight `β` and cells of width `h`. -/
noncomputable def hatStage (β h : ℝ) : Phys ℝ 11 :=
  codePhys .llf 0 (1/1000) true (fun _ _ => exLim) (fun _ _ => C2P.flat) (fun _ _ => C2P.flat.alpha * 1) (fun _ _ => 1)
    ⟨β, 0, 0, .linear, fun _ _ _ _ _ => 0, fun _ _ _ _ => 0, fun _ _ F => F, fun _ _ _ => 0,
      fun _ u => (u, exSur.prims (u 0 / (1 * lorentz C2P.flat.gam exSur.v))), fun _ x => x, none, fun _ => h, fun _ x => x, fun _ _ _ _ => 0⟩

theorem hat_stage (β h : ℝ) (hh : 0 < h) (hβ : 0 ≤ β ∧ β ≤ 1) : ContactStage exSur .llf 0 (1/1000) true C2P.flat 1 exLim 1 2 (hatStage β h) := by
  refine ⟨⟨_, rfl⟩, Or.inl rfl, Or.inr rfl, hβ, fun d => hh, fun _ _ _ => rfl, fun _ _ _ _ => rfl, fun _ _ _ _ _ => rfl, ?_, fun _ _ _ _ => rfl, fun _ _ _ _ => rfl⟩
  exact ex_stage.inv

/-- the mesh of the example: the unit interval in `nb` blocks of `nx` cells, periodic. -/
def hatGrid (nb nx : ℕ) [NeZero nb] : Grid ((d : Fin 3) → Fin ((![nb, 1, 1] : Fin 3 → ℕ) d)) :=
  haveI : ∀ d, NeZero ((![nb, 1, 1] : Fin 3 → ℕ) d) := fun d => by fin_cases d <;> simp <;> infer_instance
  regular 1 2 ![nb, 1, 1] ![nx, 1, 1] (wrapPeriodic fun d => (![nb, 1, 1] : Fin 3 → ℕ) d * (![nx, 1, 1] : Fin 3 → ℕ) d)

/-- the density of cell `j` of the mesh. -/
def meshDens {B : Type} (Gr : Grid B) (X : Mesh ℝ 11 B) (j : ℤ) : ℝ := (X.1 (Gr.own (line j)) fun e => line j e - Gr.off (Gr.own (line j)) e).2 0

/-- start of the example. -/
noncomputable def hatStart (nb nx : ℕ) [NeZero nb] : Mesh ℝ 11 ((d : Fin 3) → Fin ((![nb, 1, 1] : Fin 3 → ℕ) d)) :=
  (fun i q => exSur.cell true C2P.flat 1 (hat (0 + 1 / ((nb * nx : ℕ) : ℝ) * ((q 0 + (hatGrid nb nx).off i 0 : ℤ) : ℝ) + 1 / ((nb * nx : ℕ) : ℝ) / 2)), fun _ _ _ => 0)

/-- run of the example: two stages with weights `β₁`, `β₂`, time steps of one twentieth of a cell. -/
noncomputable def hatRun (nb nx : ℕ) [NeZero nb] (β₁ β₂ : ℝ) (est : Pos → (Fin 11 → ℝ) → (Fin 3 → ℝ × ℝ) → ℝ)
    (mem : ℕ → ℕ → ((d : Fin 3) → Fin ((![nb, 1, 1] : Fin 3 → ℕ) d)) → Mem ℝ 11) (n : ℕ) :=
  run (hatGrid nb nx) est (fun _ _ _ => 1 / (20 * ((nb * nx : ℕ) : ℝ))) (fun _ _ => [hatStage β₁ (1 / ((nb * nx : ℕ) : ℝ)), hatStage β₂ (1 / ((nb * nx : ℕ) : ℝ))]) mem n
    (hatStart nb nx, 1 / (20 * ((nb * nx : ℕ) : ℝ)))

/-- **C155 (concrete)**: the unit interval in any number of blocks of any size, `N` cells in all, two-stage steps of `1/(20 N)`, linear reconstruction: after `n` steps, at time `T = n/(20 N)`, the
summed error is at most `(18 + 512 T)/√N`.  The matter moves with velocity 3/5 and the computed profile with 3/5 times the advance of the weights: 1 for `rk2`, three halves for `vl2`. -/
theorem ex_front (nb nx : ℕ) [NeZero nb] (hx : 0 < nx) (β₁ β₂ : ℝ) (h1 : 0 ≤ β₁ ∧ β₁ ≤ 1) (h2 : 0 ≤ β₂ ∧ β₂ ≤ 1) (est : Pos → (Fin 11 → ℝ) → (Fin 3 → ℝ × ℝ) → ℝ)
    (mem : ℕ → ℕ → ((d : Fin 3) → Fin ((![nb, 1, 1] : Fin 3 → ℕ) d)) → Mem ℝ 11) (ho : Complete (hatGrid nb nx) mem) (n : ℕ) :
    let N := nb * nx
    let T := (n : ℝ) / (20 * N)
    ∑ j ∈ Finset.range N, |1 / N * meshDens (hatGrid nb nx) (hatRun nb nx β₁ β₂ est mem n).1 j - ∫ x in (1 / N * j : ℝ)..(1 / N * (j + 1)), hat (x - 3/5 * (advance [β₁, β₂] * T))| ≤
      (18 + 512 * T) / Real.sqrt N := by
  intro N T
  have hN : 0 < N := Nat.mul_pos (Nat.pos_of_ne_zero (NeZero.ne _)) hx
  have hNR : (0:ℝ) < N := by exact_mod_cast hN
  have hN1 : (1:ℝ) ≤ N := by exact_mod_cast hN
  have : ∀ d, NeZero ((![nb, 1, 1] : Fin 3 → ℕ) d) := fun d => by fin_cases d <;> simp <;> infer_instance
  have hxs : ∀ d, 0 < (![nx, 1, 1] : Fin 3 → ℕ) d := fun d => by fin_cases d <;> simp [hx]
  have hpos : ∀ d, 0 < (![nb, 1, 1] : Fin 3 → ℕ) d * (![nx, 1, 1] : Fin 3 → ℕ) d := fun d => Nat.mul_pos (Nat.pos_of_ne_zero (NeZero.ne _)) (hxs d)
  have TT := regular_tiles 1 2 ![nb, 1, 1] ![nx, 1, 1] hxs (fun d hd => by fin_cases d <;> simp at hd ⊢) _ (wrapPeriodic_box _ hpos)
  have hdtk : ∀ k, (hatRun nb nx β₁ β₂ est mem k).2 = 1 / (20 * (N : ℝ)) := fun k => by cases k <;> rfl
  have hd : C2P.flat.alpha * drift C2P.flat exSur 0 = 3/5 := by
    unfold drift; rw [ex_lorentz]; norm_num [C2P.flat, exSur]
  have hC : ∀ β, FrontCourant 2 (hatStage β (1 / (N:ℝ))) (1 / (20 * (N : ℝ))) := fun β => by
    refine ⟨by positivity, ?_⟩
    rw [if_neg (by simp [hatStage, codePhys])]
    show _ ≤ 1 / (N:ℝ)
    rw [show 1 / (20 * (N:ℝ)) * 2 * (13/2) = 13/20 * (1 / (N:ℝ)) by field_simp]
    have : (0:ℝ) < 1 / N := by positivity
    linarith
  obtain ⟨ρ, r1, r2⟩ := run_front_rate (N := N) (h := 1 / (N:ℝ)) (f := hat) (small := 0) (hatGrid nb nx) 2 _ TT est (fun _ _ _ => 1 / (20 * (N : ℝ)))
    (fun _ _ => [hatStage β₁ (1 / (N : ℝ)), hatStage β₂ (1 / (N : ℝ))]) (by norm_num)
    (fun _ _ P hP => by
      have : P.rt = .linear := by
        rcases List.mem_pair.1 hP with rfl | rfl <;> rfl
      rw [this]; decide) mem ho ex_background
    (fun _ _ P hP => by
      rcases List.mem_pair.1 hP with rfl | rfl
      · exact ⟨hat_stage _ _ (by positivity) h1, rfl⟩
      · exact ⟨hat_stage _ _ (by positivity) h2, rfl⟩) 2 (fun _ _ => le_rfl)
    (fun j hj d => by
      fin_cases d
      · simp [line]; exact_mod_cast hj
      · simp [line]
      · simp [line])
    (fun i => ⟨-(i / (N:ℤ)), by
      funext d
      show (line i d) % _ = _
      fin_cases d
      · simp [line]
        have := Int.mul_ediv_add_emod i (N:ℤ)
        have e : ((nb:ℤ) * nx) = (N:ℤ) := by simp [N]
        rw [e]; linarith [mul_comm (N:ℤ) (i / N)]
      · simp [line]
      · simp [line]⟩)
    hat_profile hat_range (by positivity) (by rw [div_le_one hNR]; exact hN1) (by field_simp) 0 (hatStart nb nx) (1 / (20 * (N : ℝ)))
    (fun _ _ _ => rfl) (fun _ _ => 0) (fun _ _ _ _ => rfl)
    (fun k P hP => by
      have e : (run (hatGrid nb nx) est (fun _ _ _ => 1 / (20 * (N : ℝ))) (fun _ _ => [hatStage β₁ (1 / (N : ℝ)), hatStage β₂ (1 / (N : ℝ))]) mem k
        (hatStart nb nx, 1 / (20 * (N : ℝ)))).2 = 1 / (20 * (N : ℝ)) := hdtk k
      rw [e]
      rcases List.mem_pair.1 hP with rfl | rfl
      · exact hC _
      · exact hC _)
    (fun k => by
      have e : (run (hatGrid nb nx) est (fun _ _ _ => 1 / (20 * (N : ℝ))) (fun _ _ => [hatStage β₁ (1 / (N : ℝ)), hatStage β₂ (1 / (N : ℝ))]) mem k
        (hatStart nb nx, 1 / (20 * (N : ℝ)))).2 = 1 / (20 * (N : ℝ)) := hdtk k
      rw [e]; positivity) n
  have e : ∀ k, (run (hatGrid nb nx) est (fun _ _ _ => 1 / (20 * (N : ℝ))) (fun _ _ => [hatStage β₁ (1 / (N : ℝ)), hatStage β₂ (1 / (N : ℝ))]) mem k
        (hatStart nb nx, 1 / (20 * (N : ℝ)))).2 = 1 / (20 * (N : ℝ)) := hdtk
  simp only [e, Finset.sum_const, Finset.card_range, nsmul_eq_mul, hd, zero_add] at r2
  have eT : (n : ℝ) * (1 / (20 * N)) = T := by simp only [T]; ring
  have eA : (n : ℝ) * (advance (List.map Phys.beta [hatStage β₁ (1 / (N:ℝ)), hatStage β₂ (1 / (N:ℝ))]) * (1 / (20 * N))) = advance [β₁, β₂] * T := by
    simp only [T, List.map]
    show (n : ℝ) * (advance [β₁, β₂] * _) = _
    ring
  rw [eT, eA] at r2
  have hρ : ∀ j < N, meshDens (hatGrid nb nx) (hatRun nb nx β₁ β₂ est mem n).1 j = ρ j := fun j hj => by
    unfold meshDens
    have := r1 j hj
    show ((run (hatGrid nb nx) est (fun _ _ _ => 1 / (20 * (N : ℝ))) (fun _ _ => [hatStage β₁ (1 / (N : ℝ)), hatStage β₂ (1 / (N : ℝ))]) mem n
        (hatStart nb nx, 1 / (20 * (N : ℝ)))).1.1 _ _).2 0 = _
    rw [this]; rfl
  rw [Finset.sum_congr rfl fun j hj => by rw [hρ j (Finset.mem_range.1 hj)]]
  refine r2.trans (le_of_eq ?_)
  rw [Real.sqrt_div zero_le_one, Real.sqrt_one]
  push_cast
  ring

theorem hat_cell (q : ℕ) (hq : 0 < q) (j : ℕ) (s : ℤ) : (∫ x in (1 / ((6 * q : ℕ) : ℝ) * j : ℝ)..(1 / ((6 * q : ℕ) : ℝ) * (j + 1)), hat (x - s / 2)) =
    1 / ((6 * q : ℕ) : ℝ) * (if (((j / (3 * q) : ℕ) : ℤ) - s) % 2 = 0 then 2 else 1) := by
  have hqR : (0:ℝ) < q := by exact_mod_cast hq
  have hl : 1 / ((6 * q : ℕ) : ℝ) * j ≤ 1 / ((6 * q : ℕ) : ℝ) * (j + 1) := by
    have : (0:ℝ) ≤ 1 / ((6 * q : ℕ) : ℝ) := by positivity
    nlinarith
  rw [intervalIntegral.integral_congr_Ioo_of_le (g := fun _ => (if (((j / (3 * q) : ℕ) : ℤ) - s) % 2 = 0 then 2 else 1 : ℝ)) hl, intervalIntegral.integral_const, smul_eq_mul]
  · ring
  · intro x hx
    obtain ⟨x1, x2⟩ := hx
    have hfl : ⌊2 * (x - s / 2)⌋ = ((j / (3 * q) : ℕ) : ℤ) - s := by
      have a := Nat.div_mul_le_self j (3 * q)
      have b : j + 1 ≤ (j / (3 * q) + 1) * (3 * q) := by
        have := Nat.lt_div_mul_add (a := j) (b := 3 * q) (by omega)
        rw [add_mul, one_mul]; omega
      have aR : ((j / (3 * q) : ℕ) : ℝ) * (3 * q) ≤ j := by exact_mod_cast a
      have bR : (j : ℝ) + 1 ≤ (((j / (3 * q) : ℕ) : ℝ) + 1) * (3 * q) := by exact_mod_cast b
      push_cast at x1 x2
      rw [one_div_mul_eq_div, div_lt_iff₀ (by positivity)] at x1
      rw [one_div_mul_eq_div, lt_div_iff₀ (by positivity)] at x2
      have y1 : ((j / (3 * q) : ℕ) : ℝ) < 2 * x := lt_of_mul_lt_mul_right (by linarith : ((j / (3 * q) : ℕ) : ℝ) * (3 * q) < 2 * x * (3 * q)) (by positivity)
      have y2 : 2 * x < ((j / (3 * q) : ℕ) : ℝ) + 1 := lt_of_mul_lt_mul_right (by linarith : 2 * x * (3 * q) < (((j / (3 * q) : ℕ) : ℝ) + 1) * (3 * q)) (by positivity)
      rw [Int.floor_eq_iff]
      rw [Int.cast_sub, Int.cast_natCast]
      constructor <;> linarith
    show hat (x - s / 2) = _
    unfold hat
    rw [hfl]

/-- **C155 (vl2)**: with the weights Parthenon uses for `vl2` the computed hat is on the wrong side at time 5/3: for a mesh of `6 q` cells, however fine, the summed distance to the true profile, which has
come back to where it started, is at least one up to the error above; the densities are 1 where they should be 2. -/
theorem ex_front_vl2 (nb nx : ℕ) [NeZero nb] (hx : 0 < nx) (q : ℕ) (hq : nb * nx = 6 * q) (est : Pos → (Fin 11 → ℝ) → (Fin 3 → ℝ × ℝ) → ℝ)
    (mem : ℕ → ℕ → ((d : Fin 3) → Fin ((![nb, 1, 1] : Fin 3 → ℕ) d)) → Mem ℝ 11) (ho : Complete (hatGrid nb nx) mem) :
    let N := nb * nx
    ((200 * q : ℕ) : ℝ) * (1 / (20 * N)) = 5/3 ∧ 1 - 872 / Real.sqrt N ≤
    ∑ j ∈ Finset.range N, |1 / N * meshDens (hatGrid nb nx) (hatRun nb nx (1/2) 1 est mem (200 * q)).1 j - ∫ x in (1 / N * j : ℝ)..(1 / N * (j + 1)), hat (x - 3/5 * (5/3))| := by
  intro N
  have hN : 0 < N := Nat.mul_pos (Nat.pos_of_ne_zero (NeZero.ne _)) hx
  have hNR : (0:ℝ) < N := by exact_mod_cast hN
  have hNq : (N:ℝ) = 6 * q := by simp only [N, hq]; push_cast; ring
  have hq0 : 0 < q := by omega
  have hqR : (0:ℝ) < q := by exact_mod_cast hq0
  have hT : ((200 * q : ℕ) : ℝ) / (20 * (N:ℝ)) = 5/3 := by rw [hNq]; push_cast; field_simp; norm_num
  refine ⟨by rw [mul_one_div, hT], ?_⟩
  have key := ex_front nb nx hx (1/2) 1 (by norm_num) (by norm_num) est mem ho (200 * q)
  simp only at key
  rw [hT, advance_schemes.2.2.2] at key
  set A : ℕ → ℝ := fun j => 1 / (N:ℝ) * meshDens (hatGrid nb nx) (hatRun nb nx (1/2) 1 est mem (200 * q)).1 j
  set C : ℕ → ℝ := fun j => ∫ x in (1 / (N:ℝ) * j : ℝ)..(1 / N * (j + 1)), hat (x - 3/5 * (3/2 * (5/3)))
  set D : ℕ → ℝ := fun j => ∫ x in (1 / (N:ℝ) * j : ℝ)..(1 / N * (j + 1)), hat (x - 3/5 * (5/3))
  have hCD : ∀ j, |C j - D j| = 1 / N := by
    intro j
    have hc : C j = 1 / (N:ℝ) * (if (((j / (3 * q) : ℕ) : ℤ) - 3) % 2 = 0 then 2 else 1) := by
      have := hat_cell q hq0 j 3
      rw [← hq] at this
      rw [← this]
      simp only [C]
      rw [show (3/5 * (3/2 * (5/3)) : ℝ) = ((3 : ℤ) : ℝ) / 2 by norm_num]
    have hd : D j = 1 / (N:ℝ) * (if (((j / (3 * q) : ℕ) : ℤ) - 2) % 2 = 0 then 2 else 1) := by
      have := hat_cell q hq0 j 2
      rw [← hq] at this
      rw [← this]
      simp only [D]
      rw [show (3/5 * (5/3) : ℝ) = ((2 : ℤ) : ℝ) / 2 by norm_num]
    have hp : (0:ℝ) < 1 / N := by positivity
    rw [hc, hd, ← mul_sub, abs_mul, abs_of_pos hp]
    have : (((j / (3 * q) : ℕ) : ℤ) - 3) % 2 = 0 ↔ ¬ (((j / (3 * q) : ℕ) : ℤ) - 2) % 2 = 0 := by omega
    by_cases h : (((j / (3 * q) : ℕ) : ℤ) - 2) % 2 = 0
    · rw [if_neg (by rw [this]; simpa using h), if_pos h]; norm_num
    · rw [if_pos (this.2 h), if_neg h]; norm_num
  have tri : ∀ j, |C j - D j| ≤ |A j - C j| + |A j - D j| := fun j => by
    have := abs_sub_le (C j) (A j) (D j)
    rwa [abs_sub_comm (C j) (A j)] at this
  have s1 := Finset.sum_le_sum fun j (_ : j ∈ Finset.range N) => tri j
  rw [Finset.sum_add_distrib, Finset.sum_congr rfl fun j _ => hCD j, Finset.sum_const, Finset.card_range, nsmul_eq_mul, mul_one_div_cancel hNR.ne'] at s1
  have s2 : (18 + 512 * (5/3 : ℝ)) / Real.sqrt N ≤ 872 / Real.sqrt N := by
    refine div_le_div_of_nonneg_right ?_ (Real.sqrt_nonneg _)
    norm_num
  have s3 : ∑ j ∈ Finset.range N, |A j - C j| ≤ (18 + 512 * (5/3)) / Real.sqrt N := key
  show 1 - 872 / Real.sqrt N ≤ ∑ j ∈ Finset.range N, |A j - D j|
  linarith

end Phoebus.Step
