import Verif.RadSweep.Model
import Verif.Moments.Fields
import Verif.FluxSweep.Props
import Verif.Recon.Props
import Verif.C2P.Bounds
import Mathlib.Data.Pi.Interval
import Mathlib.Order.Interval.Finset.Basic
import Mathlib.Data.Int.Interval
import Verif.Moments.Props
import Mathlib.Analysis.SpecialFunctions.Artanh

/-!
# C128: the radiation fluxes of a block

Every radiation flux that influences an interior cell is computed from current data, for every schedule of the loops and whatever the scratch
arrays contained; with the moment methods the update of a cell does not depend on the decomposition into blocks.  With MOCMC it does: the
opacity of the zones beyond the sides of a block is never computed.
-/
namespace Phoebus.RadSweep
open FluxSweep (Pos unit Method Blk Faces line put stateL stateR radius kernel selectMethod Enough)
variable {N S : ℕ}

/-! ### Specification -/

/-- faces whose radiation fluxes influence interior cells: the faces of interior cells. -/
def Used (b : Blk) (d : Fin 3) (f : Pos) : Prop :=
  b.act d ∧ (b.s d ≤ f d ∧ f d ≤ b.e d + 1) ∧ ∀ e, e ≠ d → b.s e ≤ f e ∧ f e ≤ b.e e

/-- the schedule executes every task of the kernel and no other. -/
def Covers (b : Blk) (rt : Method) (order : List (Task N S)) : Prop := ∀ t, t ∈ order ↔ Wanted b rt t

/-- what a face of a mesh should see: states extrapolated from both sides, the opacities of both adjacent zones and the gradient of the energy
density. -/
noncomputable def ideal (R : (ℤ → ℝ) → ℝ × ℝ) (b : Blk) (dx : Fin 3 → ℝ) (V : Fin N → Pos → ℝ) (js : Fin S → Fin N) (kap : Fin S → Pos → ℝ)
    (d : Fin 3) (f : Pos) : FaceIn N S :=
  ⟨stateL R V d f, stateR R V d f, fun s => kap s fun e => f e - unit d e, fun s => kap s f, fun s c => gradAt b dx V js d c s f⟩

/-! ### The kernel -/

open Classical in
/-- left states after the kernel. -/
theorem recon_left (R : (ℤ → ℝ) → ℝ × ℝ) (b : Blk) (dx : Fin 3 → ℝ) (v : Fin N → Pos → ℝ) (js : Fin S → Fin N) (order : List (Task N S))
    (st : Scratch N S) (d : Fin 3) (n : Fin N) (f : Pos) :
    (reconstruct R b dx v js order st).ql d n f =
      if Task.recon d n (fun e => f e - unit d e) ∈ order then stateL R v d f n else st.ql d n f := by
  unfold reconstruct
  induction order generalizing st with
  | nil => simp
  | cons t l ih =>
    rw [List.foldl_cons, ih]
    by_cases hl : Task.recon d n (fun e => f e - unit d e) ∈ l
    · simp [hl]
    · rw [if_neg hl]
      cases t with
      | grad d' s c => simp [exec, hl]
      | recon d' n' c =>
        simp only [exec, put]
        by_cases hi : d = d' ∧ n = n' ∧ f = fun e => c e + unit d' e
        · obtain ⟨rfl, rfl, hf⟩ := hi
          have hc := (FluxSweep.pos_shift _ _ _).1 hf
          rw [if_pos ⟨rfl, rfl, hf⟩, if_pos (by rw [← hc]; simp), hc, FluxSweep.line_shift]
        · rw [if_neg hi, if_neg]
          intro h
          rcases List.mem_cons.1 h with h | h
          · injection h with h1 h2 h3
            subst h1; subst h2
            exact hi ⟨rfl, rfl, (FluxSweep.pos_shift _ _ _).2 h3.symm⟩
          · exact hl h

open Classical in
/-- right states after the kernel. -/
theorem recon_right (R : (ℤ → ℝ) → ℝ × ℝ) (b : Blk) (dx : Fin 3 → ℝ) (v : Fin N → Pos → ℝ) (js : Fin S → Fin N) (order : List (Task N S))
    (st : Scratch N S) (d : Fin 3) (n : Fin N) (f : Pos) :
    (reconstruct R b dx v js order st).qr d n f = if Task.recon d n f ∈ order then stateR R v d f n else st.qr d n f := by
  unfold reconstruct
  induction order generalizing st with
  | nil => simp
  | cons t l ih =>
    rw [List.foldl_cons, ih]
    by_cases hl : Task.recon d n f ∈ l
    · simp [hl]
    · rw [if_neg hl]
      cases t with
      | grad d' s c => simp [exec, hl]
      | recon d' n' c =>
        simp only [exec, put]
        by_cases hi : d = d' ∧ n = n' ∧ f = c
        · obtain ⟨rfl, rfl, rfl⟩ := hi
          rw [if_pos ⟨rfl, rfl, rfl⟩, if_pos (by simp)]; rfl
        · rw [if_neg hi, if_neg]
          intro h
          rcases List.mem_cons.1 h with h | h
          · injection h with h1 h2 h3
            exact hi ⟨h1, h2, h3⟩
          · exact hl h

open Classical in
/-- gradients after the kernel. -/
theorem grad_val (R : (ℤ → ℝ) → ℝ × ℝ) (b : Blk) (dx : Fin 3 → ℝ) (v : Fin N → Pos → ℝ) (js : Fin S → Fin N) (order : List (Task N S))
    (st : Scratch N S) (d c : Fin 3) (s : Fin S) (f : Pos) :
    (reconstruct R b dx v js order st).dJ d c s f = if Task.grad d s f ∈ order then gradAt b dx v js d c s f else st.dJ d c s f := by
  unfold reconstruct
  induction order generalizing st with
  | nil => simp
  | cons t l ih =>
    rw [List.foldl_cons, ih]
    by_cases hl : Task.grad d s f ∈ l
    · simp [hl]
    · rw [if_neg hl]
      cases t with
      | recon d' n' c' => simp [exec, hl]
      | grad d' s' c' =>
        simp only [exec]
        by_cases hi : d = d' ∧ s = s' ∧ f = c'
        · obtain ⟨rfl, rfl, rfl⟩ := hi
          rw [if_pos ⟨rfl, rfl, rfl⟩, if_pos (by simp)]
        · rw [if_neg hi, if_neg]
          intro h
          rcases List.mem_cons.1 h with h | h
          · injection h with h1 h2 h3
            exact hi ⟨h1, h2, h3⟩
          · exact hl h

theorem ext_nonneg (b : Blk) (e : Fin 3) : 0 ≤ b.ext e := by unfold Blk.ext; split_ifs <;> omega

theorem ext_act {b : Blk} {e : Fin 3} (h : b.act e) : b.ext e = 1 := by simp [Blk.ext, h]

theorem act_zero {b : Blk} {d : Fin 3} (h : b.act d) : b.act 0 := lt_of_le_of_lt (Nat.zero_le _) h

/-- the cells around a used face belong to the loops, for every method. -/
theorem used_wanted (b : Blk) (rt : Method) (d : Fin 3) (f : Pos) (h : Used b d f) :
    ReconCell b rt d f ∧ ReconCell b rt d (fun e => f e - unit d e) ∧ GradCell b d f ∧ b.Loop f ∧ b.Loop fun e => f e - unit d e := by
  obtain ⟨ha, h1, h2⟩ := h
  have hx := ext_act ha
  have h0 := ext_act (act_zero ha)
  have key : ∀ e, b.s e - b.ext e ≤ f e ∧ f e ≤ b.e e + b.ext e := by
    intro e
    by_cases he : e = d
    · subst he; rw [hx]; omega
    · have := h2 e he; have := ext_nonneg b e; omega
  have key' : ∀ e, b.s e - b.ext e ≤ f e - unit d e ∧ f e - unit d e ≤ b.e e + b.ext e := by
    intro e
    by_cases he : e = d
    · subst he; simp only [unit, if_true]; rw [hx]; omega
    · have := key e; simp only [unit, he, if_false]; omega
  refine ⟨⟨ha, fun e _ => key e, ?_⟩, ⟨ha, fun e _ => key' e, ?_⟩, ⟨ha, fun e _ => key e, ?_⟩, key, key'⟩
  · split_ifs with hw
    · have := key 0; rw [h0] at this; exact this
    · exact h2 0 fun h => hw (.inl h.symm)
  · split_ifs with hw
    · have := key' 0; rw [h0] at this; exact this
    · have hd : (0 : Fin 3) ≠ d := fun h => hw (.inl h.symm)
      simpa [unit, hd] using h2 0 hd
  · split_ifs with hw
    · subst hw; exact h1
    · exact h2 0 fun h => hw h.symm

/-- cells of the loops have storage when there is a ghost layer. -/
theorem loop_entire (b : Blk) (hg : 1 ≤ b.g) (p : Pos) (h : b.Loop p) : b.Entire p := by
  intro e
  have := h e
  unfold Blk.ext at this
  split_ifs at this ⊢ <;> omega

/-- **C128**: every radiation flux that influences an interior cell is computed from the current states, gradients and opacities - in every
schedule and whatever the scratch arrays contained. -/
theorem fluxes_fresh {O : Type} (R : (ℤ → ℝ) → ℝ × ℝ) (rt : Method) (body : Fin 3 → Pos → FaceIn N S → O) (b : Blk) [DecidablePred b.Loop]
    [DecidablePred b.Entire] (hg : 1 ≤ b.g) (dx : Fin 3 → ℝ) (v : Fin N → Pos → ℝ) (js : Fin S → Fin N) (kap : Fin S → Pos → ℝ)
    (order : List (Task N S)) (ho : Covers b rt order) (st : Scratch N S) (kold : Fin S → Pos → ℝ) (old : Fin 3 → Pos → O) (d : Fin 3) (f : Pos)
    (h : Used b d f) :
    sweep false R body b dx v js kap order st kold old d f = body d f (ideal R b dx v js kap d f) := by
  obtain ⟨r1, r2, r3, r4, r5⟩ := used_wanted b rt d f h
  unfold sweep calculateFluxes
  rw [if_pos ⟨h.1, r4⟩]
  congr 1
  unfold readFace ideal
  congr 1
  · funext n; rw [recon_left, if_pos ((ho (.recon d n _)).2 r2)]
  · funext n; rw [recon_right, if_pos ((ho (.recon d n _)).2 r1)]
  · funext s; exact if_pos ⟨rfl, loop_entire b hg _ r5⟩
  · funext s; exact if_pos ⟨rfl, loop_entire b hg _ r4⟩
  · funext s c; rw [grad_val, if_pos ((ho (.grad d s _)).2 r3)]

/-- **C128 (layers outside)**: the flux loop is wider than the reconstruction.  Just below the block in the first direction, in every transverse
face there (all methods but MP5), the states are what the scratch arrays contained; these faces are not used. -/
theorem outer_faces_stale {O : Type} (R : (ℤ → ℝ) → ℝ × ℝ) (rt : Method) (hrt : rt ≠ .mp5) (body : Fin 3 → Pos → FaceIn N S → O) (b : Blk)
    [DecidablePred b.Loop] [DecidablePred b.Entire] (hg : 1 ≤ b.g) (dx : Fin 3 → ℝ) (v : Fin N → Pos → ℝ) (js : Fin S → Fin N)
    (kap : Fin S → Pos → ℝ) (order : List (Task N S)) (ho : Covers b rt order) (st : Scratch N S) (kold : Fin S → Pos → ℝ)
    (old : Fin 3 → Pos → O) (d : Fin 3) (hd : d ≠ 0) (ha : b.act d) (f : Pos) (hf : b.Loop f) (hlow : b.s d ≤ f d)
    (hi : f 0 = b.s 0 - 1 ∨ f 0 = b.e 0 + 1) :
    sweep false R body b dx v js kap order st kold old d f
      = body d f ⟨fun n => st.ql d n f, fun n => st.qr d n f, fun s => kap s fun e => f e - unit d e, fun s => kap s f,
          fun s c => st.dJ d c s f⟩ ∧ ¬ Used b d f := by
  have hn : ∀ (g : Pos), g 0 = f 0 → ¬ ReconCell b rt d g ∧ ¬ GradCell b d g := by
    intro g hgf
    constructor <;> rintro ⟨-, -, h⟩
    · rw [if_neg (by rintro (h | h) <;> contradiction)] at h; omega
    · rw [if_neg hd] at h; omega
  have hl : b.Loop fun e => f e - unit d e := by
    intro e
    have := hf e
    by_cases he : e = d
    · subst he; simp only [unit, if_true]; rw [ext_act ha] at this ⊢; omega
    · simp only [unit, he, if_false]; omega
  constructor
  · unfold sweep calculateFluxes
    rw [if_pos ⟨ha, hf⟩]
    congr 1
    unfold readFace
    congr 1
    · funext n
      rw [recon_left, if_neg fun h => (hn (fun e => f e - unit d e) (by simp [unit, hd.symm])).1 ((ho (.recon d n _)).1 h)]
    · funext n; rw [recon_right, if_neg fun h => (hn f rfl).1 ((ho (.recon d n f)).1 h)]
    · funext s; exact if_pos ⟨rfl, loop_entire b hg _ hl⟩
    · funext s; exact if_pos ⟨rfl, loop_entire b hg _ hf⟩
    · funext s c; rw [grad_val, if_neg fun h => (hn f rfl).2 ((ho (.grad d s f)).1 h)]
  · rintro ⟨-, -, h⟩
    have := h 0 hd.symm
    omega

theorem interior_used (b : Blk) (c : Pos) (h : b.Interior c) (d : Fin 3) (ha : b.act d) :
    Used b d c ∧ Used b d fun e => c e + unit d e := by
  refine ⟨⟨ha, ?_, fun e _ => h e⟩, ha, ?_, fun e he => ?_⟩
  · have := h d; omega
  · have := h d; simp only [unit, if_true]; omega
  · have := h e; simpa [unit, he] using this

/-! ### Decomposition -/

/-- the gradient at a used face reads only cells of the block. -/
theorem grad_local (b : Blk) (hg : 1 ≤ b.g) (dx : Fin 3 → ℝ) (v V : Fin N → Pos → ℝ) (js : Fin S → Fin N) (off : Pos)
    (hv : ∀ n c, b.Entire c → v n c = V n fun e => c e + off e) (d c : Fin 3) (s : Fin S) (f : Pos) (h : Used b d f) :
    gradAt b dx v js d c s f = gradAt b dx V js d c s fun e => f e + off e := by
  obtain ⟨ha, h1, h2⟩ := h
  have h0 := ext_act (act_zero ha)
  have near : ∀ k j i : ℤ, (∀ e, e ≠ d → f e - b.ext e ≤ ![i, j, k] e ∧ ![i, j, k] e ≤ f e + b.ext e) →
      (f d - 1 ≤ ![i, j, k] d ∧ ![i, j, k] d ≤ f d) → v (js s) ![i, j, k] = V (js s) ![i + off 0, j + off 1, k + off 2] := by
    intro k j i hp hq
    rw [hv]
    · congr 1; funext e; fin_cases e <;> rfl
    · apply loop_entire b hg
      intro e
      by_cases he : e = d
      · subst he; rw [ext_act ha]; omega
      · have := h2 e he; have := hp e he; omega
  have e1 := ext_nonneg b 1
  have e2 := ext_nonneg b 2
  unfold gradAt Moments.faceGrad jField
  have hd : d = 0 ∨ d = 1 ∨ d = 2 := by omega
  have hc : c = 0 ∨ c = 1 ∨ c = 2 := by omega
  have tac : ∀ k j i k' j' i' : ℤ, k' = k + off 2 → j' = j + off 1 → i' = i + off 0 →
      (∀ e, e ≠ d → f e - b.ext e ≤ ![i, j, k] e ∧ ![i, j, k] e ≤ f e + b.ext e) →
      (f d - 1 ≤ ![i, j, k] d ∧ ![i, j, k] d ≤ f d) → v (js s) ![i, j, k] = V (js s) ![i', j', k'] := by
    rintro k j i k' j' i' rfl rfl rfl hp hq
    exact near k j i hp hq
  have l0 : ∀ e : Fin 3, e = 0 ∨ e = 1 ∨ e = 2 := by intro e; omega
  rcases hd with rfl | rfl | rfl <;> rcases hc with rfl | rfl | rfl <;> dsimp only <;> refine congrArg₂ HMul.hMul ?_ rfl
  all_goals first
    | refine congrArg₂ HSub.hSub (congrArg₂ HSub.hSub (congrArg₂ HAdd.hAdd ?_ ?_) ?_) ?_
    | refine congrArg₂ HSub.hSub ?_ ?_
  all_goals refine tac _ _ _ _ _ _ (by ring) (by ring) (by ring) ?_ ?_
  all_goals first
    | (intro e he; rcases l0 e with rfl | rfl | rfl <;> simp [ext_act ha, h0] at he ⊢ <;> omega)
    | (simp [ext_act ha, h0] <;> omega)

/-- in a mesh, seen from a block at offset `off`, everything a used face reads is that of the mesh. -/
theorem ideal_local (ew em : ℝ) (rt : Method) (b : Blk) (hg : 1 + radius rt ≤ b.g) (dx : Fin 3 → ℝ) (v V : Fin N → Pos → ℝ)
    (js : Fin S → Fin N) (kap Kap : Fin S → Pos → ℝ) (off : Pos) (hv : ∀ n c, b.Entire c → v n c = V n fun e => c e + off e)
    (hk : ∀ s c, b.Entire c → kap s c = Kap s fun e => c e + off e) (d : Fin 3) (f : Pos) (h : Used b d f) :
    ideal (kernel ew em rt) b dx v js kap d f = ideal (kernel ew em rt) b dx V js Kap d fun e => f e + off e := by
  obtain ⟨-, -, -, r4, r5⟩ := used_wanted b rt d f h
  have hr : 0 ≤ radius rt := by cases rt <;> simp [radius]
  have hg1 : 1 ≤ b.g := by omega
  unfold ideal
  congr 1
  · funext n
    unfold stateL
    rw [FluxSweep.kernel_congr ew em rt _ (fun m => V n fun e => (f e + off e) + (m - 1) * unit d e)]
    intro k hk
    have hin := FluxSweep.stencil_inside b rt hg _ r5 d h.1 k hk
    have hp : (fun e => f e + (k - 1) * unit d e) = fun e => f e - unit d e + k * unit d e := by funext e; ring
    rw [hp, hv n _ hin]
    congr 1; funext e; ring
  · funext n
    unfold stateR
    rw [FluxSweep.kernel_congr ew em rt _ (fun m => V n fun e => (f e + off e) + m * unit d e)]
    intro k hk
    rw [hv n _ (FluxSweep.stencil_inside b rt hg _ r4 d h.1 k hk)]
    congr 1; funext e; ring
  · funext s
    rw [hk s _ (loop_entire b hg1 _ r5)]
    congr 1; funext e; ring
  · funext s; exact hk s _ (loop_entire b hg1 _ r4)
  · funext s c; exact grad_local b hg1 dx v V js off hv d c s f h

/-- flux divergence of the mesh at a cell. -/
noncomputable def idealRate (dx : Fin 3 → ℝ) (R : (ℤ → ℝ) → ℝ × ℝ) (b : Blk) (body : Fin 3 → Pos → FaceIn N S → ℕ → ℝ)
    (V : Fin N → Pos → ℝ) (js : Fin S → Fin N) (Kap : Fin S → Pos → ℝ) (m : ℕ) (c : Pos) : ℝ :=
  -∑ d : Fin 3, if b.act d then
    (body d (fun e => c e + unit d e) (ideal R b dx V js Kap d fun e => c e + unit d e) m - body d c (ideal R b dx V js Kap d c) m) / dx d else 0

/-- **C128 (decomposition independence)**: let the data of a block, ghost zones included, be those of the mesh shifted by `off`.  Then with the
moment methods the rate of change of every interior cell by radiation transport is the flux divergence of the mesh at that cell: it depends
neither on the block, nor on the place of the cell in it, nor on schedule or history. -/
theorem rate_decomposition (ew em : ℝ) (name : String) (rt : Method) (dx : Fin 3 → ℝ) (body : Fin 3 → Pos → FaceIn N S → ℕ → ℝ)
    (V : Fin N → Pos → ℝ) (js : Fin S → Fin N) (Kap : Fin S → Pos → ℝ) (b : Blk) [DecidablePred b.Loop] [DecidablePred b.Entire]
    (hsel : selectMethod name b.g = some rt) (hen : Enough rt b.g) (off : Pos) (v : Fin N → Pos → ℝ) (kap : Fin S → Pos → ℝ)
    (hv : ∀ n c, b.Entire c → v n c = V n fun e => c e + off e) (hk : ∀ s c, b.Entire c → kap s c = Kap s fun e => c e + off e)
    (order : List (Task N S)) (ho : Covers b rt order) (st : Scratch N S) (kold : Fin S → Pos → ℝ) (old : Fin 3 → Pos → ℕ → ℝ)
    (m : ℕ) (c : Pos) (h : b.Interior c) :
    FluxSweep.rate dx b (sweep false (kernel ew em rt) (fun d f => body d fun e => f e + off e) b dx v js kap order st kold old) m c
      = idealRate dx (kernel ew em rt) b body V js Kap m fun e => c e + off e := by
  have hg := FluxSweep.enough_radius name b.g rt hsel hen
  have hr : 0 ≤ radius rt := by cases rt <;> simp [radius]
  have hg1 : 1 ≤ b.g := by omega
  have key : ∀ d, b.act d →
      sweep false (kernel ew em rt) (fun d f => body d fun e => f e + off e) b dx v js kap order st kold old d c
        = body d (fun e => c e + off e) (ideal (kernel ew em rt) b dx V js Kap d fun e => c e + off e) ∧
      sweep false (kernel ew em rt) (fun d f => body d fun e => f e + off e) b dx v js kap order st kold old d (fun e => c e + unit d e)
        = body d (fun e => c e + off e + unit d e) (ideal (kernel ew em rt) b dx V js Kap d fun e => c e + off e + unit d e) := by
    intro d ha
    obtain ⟨u1, u2⟩ := interior_used b c h d ha
    have hp : (fun e => c e + unit d e + off e) = fun e => c e + off e + unit d e := by funext e; ring
    rw [fluxes_fresh _ rt _ b hg1 dx v js kap order ho st kold old d c u1, fluxes_fresh _ rt _ b hg1 dx v js kap order ho st kold old d _ u2,
      ideal_local ew em rt b hg dx v V js kap Kap off hv hk d c u1, ideal_local ew em rt b hg dx v V js kap Kap off hv hk d _ u2]
    exact ⟨rfl, by simp only [hp]⟩
  unfold FluxSweep.rate idealRate
  rw [Fin.sum_univ_three]
  congr 1
  congr 1
  · congr 1
    · by_cases a : b.act 0
      · rw [if_pos a, if_pos a, (key 0 a).1, (key 0 a).2]
      · rw [if_neg a, if_neg a]
    · by_cases a : b.act 1
      · rw [if_pos a, if_pos a, (key 1 a).1, (key 1 a).2]
      · rw [if_neg a, if_neg a]
  · by_cases a : b.act 2
    · rw [if_pos a, if_pos a, (key 2 a).1, (key 2 a).2]
    · rw [if_neg a, if_neg a]

/-- **C128 (two decompositions agree)**. -/
theorem rate_two_blocks (ew em : ℝ) (name : String) (rt : Method) (dx : Fin 3 → ℝ) (body : Fin 3 → Pos → FaceIn N S → ℕ → ℝ)
    (V : Fin N → Pos → ℝ) (js : Fin S → Fin N) (Kap : Fin S → Pos → ℝ) (b b' : Blk) [DecidablePred b.Loop] [DecidablePred b.Entire]
    [DecidablePred b'.Loop] [DecidablePred b'.Entire] (hnd : b.ndim = b'.ndim) (hgg : b.g = b'.g)
    (hsel : selectMethod name b.g = some rt) (hen : Enough rt b.g) (off off' : Pos) (v v' : Fin N → Pos → ℝ) (kap kap' : Fin S → Pos → ℝ)
    (hv : ∀ n c, b.Entire c → v n c = V n fun e => c e + off e) (hv' : ∀ n c, b'.Entire c → v' n c = V n fun e => c e + off' e)
    (hk : ∀ s c, b.Entire c → kap s c = Kap s fun e => c e + off e) (hk' : ∀ s c, b'.Entire c → kap' s c = Kap s fun e => c e + off' e)
    (order order' : List (Task N S)) (ho : Covers b rt order) (ho' : Covers b' rt order') (st st' : Scratch N S)
    (kold kold' : Fin S → Pos → ℝ) (old old' : Fin 3 → Pos → ℕ → ℝ) (m : ℕ) (c c' : Pos) (h : b.Interior c) (h' : b'.Interior c')
    (hc : ∀ e, c e + off e = c' e + off' e) :
    FluxSweep.rate dx b (sweep false (kernel ew em rt) (fun d f => body d fun e => f e + off e) b dx v js kap order st kold old) m c
      = FluxSweep.rate dx b' (sweep false (kernel ew em rt) (fun d f => body d fun e => f e + off' e) b' dx v' js kap' order' st' kold' old') m c' := by
  rw [rate_decomposition ew em name rt dx body V js Kap b hsel hen off v kap hv hk order ho st kold old m c h,
    rate_decomposition ew em name rt dx body V js Kap b' (hgg ▸ hsel) (hgg ▸ hen) off' v' kap' hv' hk' order' ho' st' kold' old' m c' h']
  have : (fun e => c e + off e) = fun e => c' e + off' e := funext hc
  rw [this]
  unfold idealRate ideal gradAt Blk.ext Blk.act
  simp only [hnd]

/-! ### MOCMC -/

/-- **C128 (MOCMC)**: the opacities at a used face are those left in the arrays by the previous stage, not those of the current state; beyond the
sides of the block, where nothing ever stores an opacity, they stay what they were at allocation. -/
theorem mocmc_opacity_old {O : Type} (R : (ℤ → ℝ) → ℝ × ℝ) (rt : Method) (body : Fin 3 → Pos → FaceIn N S → O) (b : Blk) [DecidablePred b.Loop]
    [DecidablePred b.Entire] (dx : Fin 3 → ℝ) (v : Fin N → Pos → ℝ) (js : Fin S → Fin N) (kap : Fin S → Pos → ℝ)
    (order : List (Task N S)) (ho : Covers b rt order) (st : Scratch N S) (kold : Fin S → Pos → ℝ) (old : Fin 3 → Pos → O) (d : Fin 3) (f : Pos)
    (h : Used b d f) :
    sweep true R body b dx v js kap order st kold old d f = body d f (ideal R b dx v js kold d f) := by
  obtain ⟨r1, r2, r3, r4, r5⟩ := used_wanted b rt d f h
  unfold sweep calculateFluxes
  rw [if_pos ⟨h.1, r4⟩]
  congr 1
  unfold readFace ideal
  congr 1
  · funext n; rw [recon_left, if_pos ((ho (.recon d n _)).2 r2)]
  · funext n; rw [recon_right, if_pos ((ho (.recon d n _)).2 r1)]
  · funext s c; rw [grad_val, if_pos ((ho (.grad d s _)).2 r3)]

/-- **C128 (MOCMC, history)**: after any number of stages the opacity of an interior zone is that of the last stage, and the opacity of a zone
outside the block is what the array contained at allocation. -/
theorem mocmc_history (b : Blk) [DecidablePred b.Interior] (z : Fin S → Pos → ℝ) (hist : List (Fin S → Pos → ℝ)) (last : Fin S → Pos → ℝ)
    (s : Fin S) (c : Pos) :
    mocmcHistory b z (hist ++ [last]) s c = if b.Interior c then last s c else z s c := by
  have out : ¬ b.Interior c → mocmcHistory b z hist s c = z s c := by
    intro hc
    unfold mocmcHistory
    induction hist generalizing z with
    | nil => rfl
    | cons k l ih => rw [List.foldl_cons, ih]; simp [mocmcStore, hc]
  unfold mocmcHistory at *
  rw [List.foldl_append, List.foldl_cons, List.foldl_nil, mocmcStore]
  split_ifs with hc
  · rfl
  · exact out hc

/-- a face on the side of a block: one of its two zones is outside. -/
def SideFace (b : Blk) (d : Fin 3) (f : Pos) : Prop := Used b d f ∧ (f d = b.s d ∨ f d = b.e d + 1)

/-- the flux depends on the two opacities only through their geometric mean. -/
theorem mocmcBody_kappa (small SMALL kmin : ℝ) (geo : Fin 3 → Pos → FaceGeom) (nspec : ℕ) (d : Fin 3) (f : Pos)
    (x : FaceIn (13 * nspec + 3) nspec) (s : Fin nspec) (kl kr : Fin nspec → ℝ)
    (h : Moments.faceKappa (x.kl s) (x.kr s) = Moments.faceKappa (kl s) (kr s)) :
    mocmcBody small SMALL kmin geo nspec d f x s = mocmcBody small SMALL kmin geo nspec d f { x with kl := kl, kr := kr } s := by
  simp only [mocmcBody, mocmcFlux, Moments.sideFlux, Moments.sideCon, Moments.sideFluxAsym, Moments.sideFluxThin, Moments.Face.a, Moments.sig,
    Moments.radSig, Moments.asymSig, h]

/-- **C128 (MOCMC)**: through the sides of every block radiation streams as in vacuum, whatever the opacity of the matter on both sides and in
every stage of every history: the flux there is the flux for opacity zero (the array being allocated with zeros). -/
theorem mocmc_sides_transparent (R : (ℤ → ℝ) → ℝ × ℝ) (rt : Method) (small SMALL kmin : ℝ) (geo : Fin 3 → Pos → FaceGeom) (nspec : ℕ)
    (b : Blk) [DecidablePred b.Loop] [DecidablePred b.Entire] [DecidablePred b.Interior] (dx : Fin 3 → ℝ)
    (v : Fin (13 * nspec + 3) → Pos → ℝ) (js : Fin nspec → Fin (13 * nspec + 3)) (kap : Fin nspec → Pos → ℝ)
    (order : List (Task (13 * nspec + 3) nspec)) (ho : Covers b rt order) (st : Scratch (13 * nspec + 3) nspec)
    (hist : List (Fin nspec → Pos → ℝ)) (old : Fin 3 → Pos → Fin nspec → ℝ × (Fin 3 → ℝ)) (d : Fin 3) (f : Pos) (h : SideFace b d f)
    (s : Fin nspec) :
    sweep true R (mocmcBody small SMALL kmin geo nspec) b dx v js kap order st (mocmcHistory b (fun _ _ => 0) hist) old d f s
      = mocmcBody small SMALL kmin geo nspec d f (ideal R b dx v js (fun _ _ => 0) d f) s := by
  obtain ⟨hu, hs⟩ := h
  rw [mocmc_opacity_old R rt _ b dx v js kap order ho st _ old d f hu]
  have out : ∀ c : Pos, ¬ b.Interior c → mocmcHistory b (fun (_ : Fin nspec) _ => (0 : ℝ)) hist s c = 0 := by
    intro c hc
    rcases List.eq_nil_or_concat hist with rfl | ⟨l, k, rfl⟩
    · rfl
    · rw [List.concat_eq_append, mocmc_history, if_neg hc]
  apply mocmcBody_kappa
  simp only [ideal, Moments.faceKappa, mul_zero, Real.sqrt_zero]
  rcases hs with hs | hs
  · rw [out (fun e => f e - unit d e) (fun hi => by have := (hi d).1; simp [unit] at this; omega)]; simp
  · rw [out f (fun hi => by have := (hi d).2; omega)]; simp

/-- energy flux between equal states at rest, without shift and gradient. -/
theorem mocmc_rest_flux (small SMALL kmin : ℝ) (P : Closure.Tens2) (f : Moments.Face) (hs : SMALL ≤ f.sdet) (hLR : f.L = f.R)
    (hv : Moments.sideV f.G f.B f.L = fun _ => 0) (hb : f.G.beta f.dir = 0) (hdJ : f.dJ = fun _ => 0) :
    (mocmcFlux small SMALL kmin P P f).1 = f.a small * (f.sdet * f.G.alpha * Closure.raise f.G (Moments.sideH f.G f.B f.L) f.dir) := by
  have h := (Moments.flux_decomposition small SMALL kmin (fun _ _ _ => P) f hs).1
  have e : mocmcFlux small SMALL kmin P P f = Moments.faceFlux small SMALL kmin (fun _ _ _ => P) f := rfl
  rw [e, h, ← hLR, hb]
  have h1 : (Moments.sideFluxThin (fun _ _ _ => P) f f.L).1 f.dir = f.G.alpha * Closure.raise f.G (Moments.sideH f.G f.B f.L) f.dir := by
    simp only [Moments.sideFluxThin]; rw [hv, (Moments.fluxes_rest f.G _ _ _ f.dir).1]
  have h2 : (Moments.sideFluxAsym (fun _ _ _ => P) kmin f f.L).1 f.dir = 0 := by
    simp only [Moments.sideFluxAsym]; rw [hv, (Moments.fluxes_rest f.G _ _ _ f.dir).1]
    simp [Moments.hAsym, hdJ, Closure.raise]
  rw [h1, h2]
  simp only [Moments.llf]
  ring

/-- the weight of the free-streaming flux. -/
theorem weight_eq (small : ℝ) (f : Moments.Face) :
    f.a small = Real.tanh (1 / (|Moments.faceKappa f.kl f.kr * f.dx| + small)) := by
  simp only [Moments.Face.a, Timestep.peclet, pow_one, Robust.ratio, abs_nonneg, if_true, one_mul]

theorem kernel_uniform (ew em : ℝ) (he : 0 < ew) (hm : 0 ≤ em) (rt : Method) (x : ℝ) : kernel ew em rt (fun _ => x) = (x, x) := by
  obtain ⟨h1, h2, h3, h4⟩ := Recon.recon_preserves_constants ew em x he hm
  cases rt <;> simp [kernel, *]

/-- **C128 is false for MOCMC (decomposition)**: in uniform matter at rest with opacity `k > 0`, crossed by uniform radiation, the energy flux
through a face depends on whether the face is inside a block or between two blocks. -/
theorem mocmc_decomposition_dependent (ew em : ℝ) (he : 0 < ew) (hm : 0 ≤ em) (rt : Method) (small SMALL kmin : ℝ) (geo : Fin 3 → Pos → FaceGeom)
    (nspec : ℕ) (b b' : Blk) [DecidablePred b.Loop] [DecidablePred b.Entire] [DecidablePred b.Interior] [DecidablePred b'.Loop]
    [DecidablePred b'.Entire] [DecidablePred b'.Interior] (dx : Fin 3 → ℝ) (q : Fin (13 * nspec + 3) → ℝ)
    (js : Fin nspec → Fin (13 * nspec + 3)) (kap kap' : Fin nspec → Pos → ℝ) (order order' : List (Task (13 * nspec + 3) nspec))
    (ho : Covers b rt order) (ho' : Covers b' rt order') (st st' : Scratch (13 * nspec + 3) nspec) (hist hist' : List (Fin nspec → Pos → ℝ))
    (old old' : Fin 3 → Pos → Fin nspec → ℝ × (Fin 3 → ℝ)) (d : Fin 3) (f f' : Pos) (hf : Used b d f) (hin : b.Interior f)
    (hin' : b.Interior fun e => f e - unit d e) (hf' : SideFace b' d f') (s : Fin nspec) (k : ℝ) (hk : 0 < k) (hgeo : geo d f = geo d f')
    (hs : SMALL ≤ (geo d f).sdet) (hdx : 0 < (geo d f).dx) (hb : (geo d f).G.beta d = 0)
    (hv : Moments.sideV (geo d f).G (geo d f).B (sideMocmc nspec (fun n => if h : n < 13 * nspec + 3 then q ⟨n, h⟩ else 0) s) = fun _ => 0)
    (hF : (geo d f).sdet * (geo d f).G.alpha * Closure.raise (geo d f).G (Moments.sideH (geo d f).G (geo d f).B
      (sideMocmc nspec (fun n => if h : n < 13 * nspec + 3 then q ⟨n, h⟩ else 0) s)) d ≠ 0) :
    (sweep true (kernel ew em rt) (mocmcBody small SMALL kmin geo nspec) b dx (fun n _ => q n) js kap order st
        (mocmcHistory b (fun _ _ => 0) (hist ++ [fun _ _ => k])) old d f s).1
      ≠ (sweep true (kernel ew em rt) (mocmcBody small SMALL kmin geo nspec) b' dx (fun n _ => q n) js kap' order' st'
        (mocmcHistory b' (fun _ _ => 0) (hist' ++ [fun _ _ => k])) old' d f' s).1 := by
  rw [mocmc_sides_transparent _ rt _ _ _ _ _ b' dx _ js kap' order' ho' st' _ old' d f' hf' s,
    mocmc_opacity_old _ rt _ b dx _ js kap order ho st _ old d f hf]
  have hL : ∀ g : Pos, stateL (kernel ew em rt) (fun n (_ : Pos) => q n) d g = q := by
    intro g; funext n; simp only [stateL]; rw [kernel_uniform ew em he hm]
  have hR : ∀ g : Pos, stateR (kernel ew em rt) (fun n (_ : Pos) => q n) d g = q := by
    intro g; funext n; simp only [stateR]; rw [kernel_uniform ew em he hm]
  have hg : ∀ (b : Blk) (c : Fin 3) (g : Pos), gradAt b dx (fun n (_ : Pos) => q n) js d c s g = 0 := by
    intro b c g
    unfold gradAt Moments.faceGrad jField
    fin_cases d <;> fin_cases c <;> simp
  simp only [mocmcBody, ideal, hL, hR, mocmc_history, if_pos hin, if_pos hin', hg, ← hgeo]
  rw [mocmc_rest_flux _ _ _ _ _ hs rfl hv hb rfl, mocmc_rest_flux _ _ _ _ _ hs rfl hv hb rfl, weight_eq, weight_eq]
  intro h
  have h := Real.tanh_injective (mul_right_cancel₀ hF h)
  have hkk : Moments.faceKappa k k = k := by unfold Moments.faceKappa; exact Real.sqrt_mul_self hk.le
  have h0 : Moments.faceKappa 0 0 = 0 := by simp [Moments.faceKappa]
  simp only [hkk, h0, zero_mul, abs_zero, zero_add, one_div, inv_inj, abs_of_pos (mul_pos hk hdx)] at h
  have := mul_pos hk hdx
  linarith

/-! ### What the body reads -/

/-- **C128** on a three-dimensional block with an energy density that is a quadratic function of position, the gradient used at a face is the gradient at the face. -/
theorem grad_exact (b : Blk) (hb : b.ndim = 3) (dx : Fin 3 → ℝ) (hdx : ∀ d, dx d ≠ 0) (p : Moments.Quad) (v : Fin N → Pos → ℝ) (js : Fin S → Fin N) (s : Fin S)
    (hv : ∀ c : Pos, v (js s) c = p.eval ![c 0 * dx 0, c 1 * dx 1, c 2 * dx 2]) (d c : Fin 3) (f : Pos) :
    gradAt b dx v js d c s f = p.grad (fun a => (![(f 0 : ℝ), f 1, f 2] a - if a = d then 1/2 else 0) * dx a) c := by
  have e1 : b.ext 1 = 1 := by simp [Blk.ext, Blk.act, hb]
  have e2 : b.ext 2 = 1 := by simp [Blk.ext, Blk.act, hb]
  rw [← Moments.face_grad_exact p dx hdx d c (f 2) (f 1) (f 0)]
  unfold gradAt jField
  rw [e1, e2]
  congr 1
  funext k j i
  rw [hv]; simp

/-- **C128** layout: if the reconstructed arrays hold species `t` of the energy density at `t`, component `i` of its flux at `nspec + t + nspec i` and the velocities at the end,
the flux of species `s` is the one of these states. -/
theorem moment_body_reads (small SMALL kmin : ℝ) (tp : Geom.ADM ℝ → (Fin 3 → ℝ) → ℝ → (Fin 3 → ℝ) → Fin 3 → Fin 3 → ℝ) (geo : Fin 3 → Pos → FaceGeom) (nspec : ℕ) (d : Fin 3)
    (f : Pos) (x : FaceIn (4 * nspec + 3) nspec) (vl vr : Fin 3 → ℝ) (Jl Jr : Fin nspec → ℝ) (Hl Hr : Fin nspec → Fin 3 → ℝ)
    (hJ : ∀ (t : Fin nspec) (n : Fin (4 * nspec + 3)), n.val = t.val → x.l n = Jl t ∧ x.r n = Jr t)
    (hH : ∀ (t : Fin nspec) (i : Fin 3) (n : Fin (4 * nspec + 3)), n.val = nspec + t.val + nspec * i.val → x.l n = Hl t i ∧ x.r n = Hr t i)
    (hv : ∀ (i : Fin 3) (n : Fin (4 * nspec + 3)), n.val = 4 * nspec + i.val → x.l n = vl i ∧ x.r n = vr i) (s : Fin nspec) :
    momentBody small SMALL kmin tp geo nspec d f x s = Moments.faceFlux small SMALL kmin (tp (geo d f).G)
      ⟨(geo d f).G, (geo d f).sdet, (geo d f).dx, d, (geo d f).B, ⟨vl, Jl s, Hl s⟩, ⟨vr, Jr s, Hr s⟩, x.kl s, x.kr s, x.dJ s⟩ := by
  have hs := s.isLt
  have b0 : s.val < 4 * nspec + 3 := by omega
  have bi : ∀ i : Fin 3, s.val + nspec * (i.val + 1) < 4 * nspec + 3 := by
    intro i; have : nspec * (i.val + 1) ≤ nspec * 3 := Nat.mul_le_mul_left _ (by omega); omega
  have bv : ∀ i : Fin 3, 4 * nspec + i.val < 4 * nspec + 3 := by intro i; omega
  have q0 : ∀ y : Fin (4 * nspec + 3) → ℝ, (if h : Moments.packVar nspec s 0 < 4 * nspec + 3 then y ⟨_, h⟩ else 0) = y ⟨s, b0⟩ := by
    intro y; simp [Moments.packVar, b0]
  have qi : ∀ (y : Fin (4 * nspec + 3) → ℝ) (i : Fin 3), (if h : Moments.packVar nspec s (i + 1) < 4 * nspec + 3 then y ⟨_, h⟩ else 0)
      = y ⟨s.val + nspec * (i.val + 1), bi i⟩ := by
    intro y i; simp [Moments.packVar_eq, bi i]
  have ei : ∀ i : Fin 3, s.val + nspec * (i.val + 1) = nspec + s.val + nspec * i.val := fun i => by ring
  simp only [momentBody, sideOf, q0, qi, bv, dif_pos]
  rw [(hJ s ⟨s, b0⟩ rfl).1, (hJ s ⟨s, b0⟩ rfl).2, funext fun i => (hH s i ⟨_, bi i⟩ (ei i)).1, funext fun i => (hH s i ⟨_, bi i⟩ (ei i)).2,
    funext fun i => (hv i ⟨_, bv i⟩ rfl).1, funext fun i => (hv i ⟨_, bv i⟩ rfl).2]

/-- with MOCMC the pressure tensor of species `t` is at `4 nspec + t + nspec (i + 3 j)` and the velocities after it. -/
theorem mocmc_body_reads (small SMALL kmin : ℝ) (geo : Fin 3 → Pos → FaceGeom) (nspec : ℕ) (d : Fin 3)
    (f : Pos) (x : FaceIn (13 * nspec + 3) nspec) (vl vr : Fin 3 → ℝ) (Jl Jr : Fin nspec → ℝ) (Hl Hr : Fin nspec → Fin 3 → ℝ) (Pl Pr : Fin nspec → Closure.Tens2)
    (hJ : ∀ (t : Fin nspec) (n : Fin (13 * nspec + 3)), n.val = t.val → x.l n = Jl t ∧ x.r n = Jr t)
    (hH : ∀ (t : Fin nspec) (i : Fin 3) (n : Fin (13 * nspec + 3)), n.val = nspec + t.val + nspec * i.val → x.l n = Hl t i ∧ x.r n = Hr t i)
    (hP : ∀ (t : Fin nspec) (i j : Fin 3) (n : Fin (13 * nspec + 3)), n.val = 4 * nspec + t.val + nspec * (i.val + 3 * j.val) → x.l n = Pl t i j ∧ x.r n = Pr t i j)
    (hv : ∀ (i : Fin 3) (n : Fin (13 * nspec + 3)), n.val = 13 * nspec + i.val → x.l n = vl i ∧ x.r n = vr i) (s : Fin nspec) :
    mocmcBody small SMALL kmin geo nspec d f x s = mocmcFlux small SMALL kmin (Pl s) (Pr s)
      ⟨(geo d f).G, (geo d f).sdet, (geo d f).dx, d, (geo d f).B, ⟨vl, Jl s, Hl s⟩, ⟨vr, Jr s, Hr s⟩, x.kl s, x.kr s, x.dJ s⟩ := by
  have hs := s.isLt
  have b0 : s.val < 13 * nspec + 3 := by omega
  have bi : ∀ i : Fin 3, s.val + nspec * (i.val + 1) < 13 * nspec + 3 := by
    intro i; have : nspec * (i.val + 1) ≤ nspec * 3 := Nat.mul_le_mul_left _ (by omega); omega
  have bij : ∀ i j : Fin 3, s.val + nspec * (4 + i.val + 3 * j.val) < 13 * nspec + 3 := by
    intro i j; have : nspec * (4 + i.val + 3 * j.val) ≤ nspec * 12 := Nat.mul_le_mul_left _ (by omega); omega
  have bv : ∀ i : Fin 3, 13 * nspec + i.val < 13 * nspec + 3 := by intro i; omega
  have q0 : ∀ y : Fin (13 * nspec + 3) → ℝ, (if h : Moments.packVar nspec s 0 < 13 * nspec + 3 then y ⟨_, h⟩ else 0) = y ⟨s, b0⟩ := by
    intro y; simp [Moments.packVar, b0]
  have qi : ∀ (y : Fin (13 * nspec + 3) → ℝ) (i : Fin 3), (if h : Moments.packVar nspec s (i + 1) < 13 * nspec + 3 then y ⟨_, h⟩ else 0)
      = y ⟨s.val + nspec * (i.val + 1), bi i⟩ := by
    intro y i; simp [Moments.packVar_eq, bi i]
  have qij : ∀ (y : Fin (13 * nspec + 3) → ℝ) (i j : Fin 3), (if h : Moments.packVar nspec s (4 + i + 3 * j) < 13 * nspec + 3 then y ⟨_, h⟩ else 0)
      = y ⟨s.val + nspec * (4 + i.val + 3 * j.val), bij i j⟩ := by
    intro y i j; simp [Moments.packVar_eq, bij i j]
  have ei : ∀ i : Fin 3, s.val + nspec * (i.val + 1) = nspec + s.val + nspec * i.val := fun i => by ring
  have eij : ∀ i j : Fin 3, s.val + nspec * (4 + i.val + 3 * j.val) = 4 * nspec + s.val + nspec * (i.val + 3 * j.val) := fun i j => by ring
  simp only [mocmcBody, sideMocmc, q0, qi, qij, bv, dif_pos]
  rw [(hJ s ⟨s, b0⟩ rfl).1, (hJ s ⟨s, b0⟩ rfl).2, funext fun i => (hH s i ⟨_, bi i⟩ (ei i)).1, funext fun i => (hH s i ⟨_, bi i⟩ (ei i)).2,
    funext fun i => (hv i ⟨_, bv i⟩ rfl).1, funext fun i => (hv i ⟨_, bv i⟩ rfl).2,
    funext fun i => funext fun j => (hP s i j ⟨_, bij i j⟩ (eij i j)).1, funext fun i => funext fun j => (hP s i j ⟨_, bij i j⟩ (eij i j)).2]

/-! ### The hypotheses can be met -/

/-- every block has a schedule. -/
theorem covers_exists (b : Blk) (rt : Method) : ∃ order : List (Task N S), Covers b rt order := by
  have hfin : {t : Task N S | Wanted b rt t}.Finite := by
    have hb : (Set.Icc (fun e => b.s e - b.ext e - 1 : Pos) (fun e => b.e e + b.ext e + 1)).Finite := Set.finite_Icc _ _
    have h1 := ((Set.finite_univ (α := Fin 3)).prod ((Set.finite_univ (α := Fin N)).prod hb)).image fun x => (Task.recon x.1 x.2.1 x.2.2 : Task N S)
    have h2 := ((Set.finite_univ (α := Fin 3)).prod ((Set.finite_univ (α := Fin S)).prod hb)).image fun x => (Task.grad x.1 x.2.1 x.2.2 : Task N S)
    have box : ∀ c : Pos, (∀ e, e ≠ 0 → b.s e - b.ext e ≤ c e ∧ c e ≤ b.e e + b.ext e) → (b.s 0 - 1 ≤ c 0 ∧ c 0 ≤ b.e 0 + 1) →
        c ∈ Set.Icc (fun e => b.s e - b.ext e - 1 : Pos) (fun e => b.e e + b.ext e + 1) := by
      intro c hc h0
      have e0 := ext_nonneg b 0
      constructor <;> intro e <;> by_cases he : e = 0
      · subst he; show b.s 0 - b.ext 0 - 1 ≤ c 0; omega
      · have := hc e he; show b.s e - b.ext e - 1 ≤ c e; omega
      · subst he; show c 0 ≤ b.e 0 + b.ext 0 + 1; omega
      · have := hc e he; show c e ≤ b.e e + b.ext e + 1; omega
    refine (h1.union h2).subset ?_
    rintro (⟨d, n, c⟩ | ⟨d, s, c⟩) ht
    · left
      refine ⟨(d, n, c), ⟨trivial, trivial, box c ht.2.1 ?_⟩, rfl⟩
      have := ht.2.2
      split_ifs at this <;> omega
    · right
      refine ⟨(d, s, c), ⟨trivial, trivial, box c ht.2.1 ?_⟩, rfl⟩
      have := ht.2.2
      split_ifs at this <;> omega
  exact ⟨hfin.toFinset.toList, fun t => by simp⟩

/-- one-dimensional block of the example. -/
def exBlk : Blk := ⟨1, 4, ![8, 1, 1]⟩

/-- flat space, cell width 1/8. -/
noncomputable def exGeo : Fin 3 → Pos → FaceGeom := fun _ _ => ⟨C2P.flat, 1, 1/8, ⟨false, 10, 0, 1⟩⟩

/-- radiation with energy density 1 and flux 1/2 along the first direction, matter at rest. -/
noncomputable def exQ : Fin (13 * 1 + 3) → ℝ := fun n => if n.val = 0 then 1 else if n.val = 1 then 1/2 else 0

open Classical in
/-- two blocks of the same shape: the flux through the middle of the first differs from the flux through the lower side of the second. -/
example : ∃ order : List (Task (13 * 1 + 3) 1), ∀ (st : Scratch (13 * 1 + 3) 1) (old : Fin 3 → Pos → Fin 1 → ℝ × (Fin 3 → ℝ)),
    (sweep true (kernel (1/100) 0 .weno5z) (mocmcBody (1/100) (1/100) (1/100) exGeo 1) exBlk (fun _ => 1/8) (fun n _ => exQ n) (fun _ => 0) (fun _ _ => 1)
        order st (mocmcHistory exBlk (fun _ _ => 0) ([] ++ [fun _ _ => 1])) old 0 ![8, 0, 0] 0).1
      ≠ (sweep true (kernel (1/100) 0 .weno5z) (mocmcBody (1/100) (1/100) (1/100) exGeo 1) exBlk (fun _ => 1/8) (fun n _ => exQ n) (fun _ => 0) (fun _ _ => 1)
        order st (mocmcHistory exBlk (fun _ _ => 0) ([] ++ [fun _ _ => 1])) old 0 ![4, 0, 0] 0).1 := by
  obtain ⟨order, ho⟩ := covers_exists (N := 13 * 1 + 3) (S := 1) exBlk .weno5z
  have hs : ∀ e, exBlk.s e = ![4, 0, 0] e ∧ exBlk.e e = ![11, 0, 0] e := by
    intro e; fin_cases e <;> simp [exBlk, Blk.s, Blk.e, Blk.act]
  have ha : exBlk.act 0 := by simp [exBlk, Blk.act]
  have us : ∀ x : ℤ, 4 ≤ x → x ≤ 12 → Used exBlk 0 ![x, 0, 0] := by
    intro x h1 h2
    refine ⟨ha, ?_, fun e he => ?_⟩
    · rw [(hs 0).1, (hs 0).2]; simpa using ⟨h1, by omega⟩
    · rw [(hs e).1, (hs e).2]; fin_cases e <;> simp at he ⊢
  have hV : Moments.sideV (exGeo 0 ![8, 0, 0]).G (exGeo 0 ![8, 0, 0]).B
      (sideMocmc 1 (fun n => if h : n < 13 * 1 + 3 then exQ ⟨n, h⟩ else 0) (0 : Fin 1)) = fun _ => 0 := by
    funext i; fin_cases i <;> simp [Moments.sideV, exGeo, sideMocmc, exQ]
  refine ⟨order, fun st old => mocmc_decomposition_dependent (1/100) 0 (by norm_num) le_rfl .weno5z (1/100) (1/100) (1/100) exGeo 1 exBlk exBlk _ exQ
    _ _ _ order order ho ho st st [] [] old old 0 ![8, 0, 0] ![4, 0, 0] (us 8 (by norm_num) (by norm_num)) ?_ ?_ ⟨us 4 (by norm_num) (by norm_num), ?_⟩ 0 1 one_pos rfl ?_ ?_ ?_ hV ?_⟩
  · intro e; rw [(hs e).1, (hs e).2]; fin_cases e <;> simp
  · intro e; rw [(hs e).1, (hs e).2]; fin_cases e <;> simp [unit]
  · left; rw [(hs 0).1]
  · norm_num [exGeo]
  · norm_num [exGeo]
  · simp [exGeo, C2P.flat]
  · simp [exGeo, C2P.flat, Closure.raise, Moments.sideH, Moments.sideH0, Moments.sideJ, sideMocmc, exQ, Moments.packVar, Fin.sum_univ_three]

end Phoebus.RadSweep
