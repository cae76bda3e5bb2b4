import Verif.Step.Joint
import Verif.RadSweep.Props

/-!
# C130, C140, C144: the radiation fluxes of the code in the run

The field `rad` of a stage is a function of the states of the cells around a face.  Here it is the kernel of `moments.cpp`: reconstruction of the moments and
velocities, gradients of the energy density, opacities of the two adjacent cells.  `sweep_near`: this is what every block computes at every face of its
interior cells, whatever the schedule of the loops and whatever the scratch arrays, the opacity array and the flux array contained.
-/
namespace Phoebus.Step
open FluxSweep
open Phoebus.RadSweep (FaceIn FaceGeom Scratch Task momentBody)
variable {N M S : ℕ}

/-! ### Model -/

/-- shape used for the offsets of the gradient in a mesh of `nd` dimensions.
(Helper: only `ext`, moments.cpp:412-413, is read.) -/
def meshBlk (nd : ℕ) : Blk := ⟨nd, 0, fun _ => 0⟩

/-- the radiation flux at face `p` from the states `st` around it, moments.cpp:281-742: `sel` selects what is reconstructed from the variables of a cell, `kap` is the opacity
of a cell (moments.cpp:927-1001), `body` the kernel at the face.  In the directions the mesh does not have nothing is computed (moments.cpp:538-539). -/
noncomputable def radOf (ew em : ℝ) (rt : Method) (nd : ℕ) (dx : Fin 3 → ℝ) (sel : Fin M → Fin N) (js : Fin S → Fin M) (kap : Pos → (Fin N → ℝ) → Fin S → ℝ)
    (body : Fin 3 → Pos → FaceIn M S → ℕ → ℝ) : Fin 3 → Pos → (Pos → Fin N → ℝ) → ℕ → ℝ := fun d p st =>
  if d.val < nd then
    body d p (RadSweep.ideal (kernel ew em rt) (meshBlk nd) dx (fun n c => st (fun e => c e - p e) (sel n)) js (fun s c => kap c (st fun e => c e - p e) s) d p)
  else 0

/-- where the fluxes of the species are stored, moments.cpp:722-736: energy and momentum of species `k` in the slots of `radSlot`. -/
def radStore (nspec : ℕ) (F : Fin nspec → ℝ × (Fin 3 → ℝ)) : ℕ → ℝ := fun m =>
  if h : 9 ≤ m ∧ m < 9 + 4 * nspec then
    let k : Fin nspec := ⟨(m - 9) / 4, by omega⟩
    if (m - 9) % 4 = 0 then (F k).1 else (F k).2 (Fin.ofNat 3 ((m - 9) % 4 - 1))
  else 0

/-- the radiation fluxes of the moment methods, moments.cpp:545-737. -/
noncomputable def codeRad (ew em : ℝ) (rt : Method) (nd : ℕ) (dx : Fin 3 → ℝ) (small SMALL kmin : ℝ)
    (tp : Geom.ADM ℝ → (Fin 3 → ℝ) → ℝ → (Fin 3 → ℝ) → Fin 3 → Fin 3 → ℝ) (geo : Fin 3 → Pos → FaceGeom) (nspec : ℕ) (sel : Fin (4 * nspec + 3) → Fin N)
    (js : Fin nspec → Fin (4 * nspec + 3)) (kap : Pos → (Fin N → ℝ) → Fin nspec → ℝ) : Fin 3 → Pos → (Pos → Fin N → ℝ) → ℕ → ℝ :=
  radOf ew em rt nd dx sel js kap fun d p x => radStore nspec (momentBody small SMALL kmin tp geo nspec d p x)

/-! ### Proof -/

/-- the gradient at a face reads cells of the stencil. -/
theorem grad_near (b b' : Blk) (hbb : b.ndim = b'.ndim) (rt : Method) (dx : Fin 3 → ℝ) (v V : Fin M → Pos → ℝ) (js : Fin S → Fin M) (d : Fin 3) (ha : b.act d) (f F : Pos)
    (hv : ∀ n r, Stencil b.ndim rt d r → v n (fun e => f e + r e) = V n fun e => F e + r e) (c : Fin 3) (s : Fin S) :
    RadSweep.gradAt b dx v js d c s f = RadSweep.gradAt b' dx V js d c s F := by
  have hr : 0 ≤ radius rt := by cases rt <;> simp [radius]
  have h0 := RadSweep.ext_act (RadSweep.act_zero ha)
  have hext : ∀ e, b'.ext e = b.ext e := by
    intro e
    by_cases h : b.act e
    · rw [RadSweep.ext_act h, RadSweep.ext_act (show b'.act e from (hbb ▸ h : (e : ℕ) < b'.ndim))]
    · have h' : ¬ b'.act e := fun x => h (show (e : ℕ) < b.ndim from hbb ▸ x)
      unfold Blk.ext
      rw [if_neg h, if_neg h']
  have hone : ∀ e : Fin 3, (e : ℕ) < b.ndim ∧ b.ext e = 1 ∨ ¬ (e : ℕ) < b.ndim ∧ b.ext e = 0 := by
    intro e; unfold Blk.ext Blk.act
    by_cases h : (e : ℕ) < b.ndim
    · exact Or.inl ⟨h, if_pos h⟩
    · exact Or.inr ⟨h, if_neg h⟩
  have tac : ∀ k j i k' j' i' : ℤ, k - f 2 = k' - F 2 → j - f 1 = j' - F 1 → i - f 0 = i' - F 0 →
      (∀ e, e ≠ d → f e - b.ext e ≤ ![i, j, k] e ∧ ![i, j, k] e ≤ f e + b.ext e) →
      (f d - 1 ≤ ![i, j, k] d ∧ ![i, j, k] d ≤ f d) → v (js s) ![i, j, k] = V (js s) ![i', j', k'] := by
    intro k j i k' j' i' hk hj hi hp hq
    have key := hv (js s) (fun e => ![i, j, k] e - f e) (by
      intro e
      by_cases he : e = d
      · subst he
        rw [if_pos (show (e : ℕ) < b.ndim from ha), if_pos rfl]
        beta_reduce
        omega
      · have := hp e he
        rcases hone e with ⟨h1, h2⟩ | ⟨h1, h2⟩
        · rw [if_pos h1, if_neg he]; beta_reduce; omega
        · rw [if_neg h1]; beta_reduce; omega)
    have e1 : (fun e => f e + (![i, j, k] e - f e)) = ![i, j, k] := by funext e; ring
    have e2 : (fun e => F e + (![i, j, k] e - f e)) = ![i', j', k'] := by
      funext e; fin_cases e
      · show F 0 + (i - f 0) = i'; omega
      · show F 1 + (j - f 1) = j'; omega
      · show F 2 + (k - f 2) = k'; omega
    rw [e1, e2] at key
    exact key
  have e1 := RadSweep.ext_nonneg b 1
  have e2 := RadSweep.ext_nonneg b 2
  unfold RadSweep.gradAt Moments.faceGrad RadSweep.jField
  have hd : d = 0 ∨ d = 1 ∨ d = 2 := by omega
  have hc : c = 0 ∨ c = 1 ∨ c = 2 := by omega
  have l0 : ∀ e : Fin 3, e = 0 ∨ e = 1 ∨ e = 2 := by intro e; omega
  rw [hext 1, hext 2]
  rcases hd with rfl | rfl | rfl <;> rcases hc with rfl | rfl | rfl <;> dsimp only <;> refine congrArg₂ HMul.hMul ?_ rfl
  all_goals first
    | refine congrArg₂ HSub.hSub (congrArg₂ HSub.hSub (congrArg₂ HAdd.hAdd ?_ ?_) ?_) ?_
    | refine congrArg₂ HSub.hSub ?_ ?_
  all_goals refine tac _ _ _ _ _ _ (by ring) (by ring) (by ring) ?_ ?_
  all_goals first
    | (intro e he; rcases l0 e with rfl | rfl | rfl <;> simp [RadSweep.ext_act ha, h0] at he ⊢ <;> omega)
    | (simp [RadSweep.ext_act ha, h0] <;> omega)

/-- what a face sees depends only on the cells of the stencil. -/
theorem ideal_near (ew em : ℝ) (rt : Method) (b b' : Blk) (hbb : b.ndim = b'.ndim) (dx : Fin 3 → ℝ) (v V : Fin M → Pos → ℝ) (js : Fin S → Fin M)
    (kap Kap : Fin S → Pos → ℝ) (d : Fin 3) (ha : b.act d) (f F : Pos)
    (hv : ∀ n r, Stencil b.ndim rt d r → v n (fun e => f e + r e) = V n fun e => F e + r e)
    (hk : ∀ s r, Stencil b.ndim rt d r → kap s (fun e => f e + r e) = Kap s fun e => F e + r e) :
    RadSweep.ideal (kernel ew em rt) b dx v js kap d f = RadSweep.ideal (kernel ew em rt) b' dx V js Kap d F := by
  have hr : 0 ≤ radius rt := by cases rt <;> simp [radius]
  have ha' : (d : ℕ) < b.ndim := ha
  have hst : ∀ k : ℤ, -(1 + radius rt) ≤ k → k ≤ radius rt → Stencil b.ndim rt d fun e => k * unit d e := by
    intro k h1 h2 e
    by_cases he : e = d
    · subst he
      rw [if_pos ha', if_pos rfl]
      simp only [unit, if_true]; omega
    · simp only [unit, he, if_false, mul_zero]
      split_ifs <;> omega
  unfold RadSweep.ideal
  congr 1
  · funext n
    unfold stateL
    rw [kernel_congr ew em rt _ fun m => V n fun e => F e + (m - 1) * unit d e]
    intro k hk
    rw [abs_le] at hk
    exact hv n _ (hst (k - 1) (by omega) (by omega))
  · funext n
    unfold stateR
    rw [kernel_congr ew em rt _ fun m => V n fun e => F e + m * unit d e]
    intro k hk
    rw [abs_le] at hk
    exact hv n _ (hst k (by omega) (by omega))
  · funext s
    have := hk s _ (hst (-1) (by omega) (by omega))
    simpa only [neg_one_mul, ← sub_eq_add_neg] using this
  · funext s
    have := hk s _ (hst 0 (by omega) (by omega))
    simpa only [zero_mul, add_zero] using this
  · funext s c
    exact grad_near b b' hbb rt dx v V js d ha f F hv c s

/-- **C128, C130**: at every face of an interior cell the sweep of the block - for every schedule of its loops, every content of the scratch arrays, of the opacity array and of the
flux array - gives the radiation flux `rad` of the run. -/
theorem sweep_near (ew em : ℝ) (rt : Method) (nd : ℕ) (dx : Fin 3 → ℝ) (sel : Fin M → Fin N) (js : Fin S → Fin M) (kap : Pos → (Fin N → ℝ) → Fin S → ℝ)
    (body : Fin 3 → Pos → FaceIn M S → ℕ → ℝ) (b : Blk) [DecidablePred b.Loop] [DecidablePred b.Entire] (hnd : b.ndim = nd) (hg : 1 ≤ b.g) (off : Pos)
    (X : Fields ℝ N) (order : List (Task M S)) (ho : RadSweep.Covers b rt order) (st : Scratch M S) (kold : Fin S → Pos → ℝ) (old : Fin 3 → Pos → ℕ → ℝ)
    (d : Fin 3) (f : Pos) (h : RadSweep.Used b d f) :
    RadSweep.sweep false (kernel ew em rt) (fun d f => body d fun e => f e + off e) b dx (fun n c => (X c).2 (sel n)) js
        (fun s c => kap (fun e => c e + off e) (X c).2 s) order st kold old d f
      = radOf ew em rt nd dx sel js kap body d (fun e => f e + off e) (near nd rt d f X) := by
  subst hnd
  rw [RadSweep.fluxes_fresh (kernel ew em rt) rt _ b hg dx _ js _ order ho st kold old d f h]
  unfold radOf
  rw [if_pos (show (d : ℕ) < b.ndim from h.1)]
  congr 1
  refine ideal_near ew em rt b (meshBlk b.ndim) rfl dx _ _ js _ _ d h.1 f (fun e => f e + off e) ?_ ?_
  · intro n r hr
    have e1 : (fun e => f e + off e + r e - (f e + off e)) = r := by funext e; ring
    show (X fun e => f e + r e).2 (sel n) = near b.ndim rt d f X (fun e => f e + off e + r e - (f e + off e)) (sel n)
    rw [e1]
    unfold near
    rw [if_pos hr]
  · intro s r hr
    have e1 : (fun e => f e + off e + r e - (f e + off e)) = r := by funext e; ring
    have e2 : (fun e => f e + r e + off e) = fun e => f e + off e + r e := by funext e; ring
    have e3 : near b.ndim rt d f X r = (X fun e => f e + r e).2 := by funext n; unfold near; rw [if_pos hr]
    show kap (fun e => f e + r e + off e) (X fun e => f e + r e).2 s = kap (fun e => f e + off e + r e) (near b.ndim rt d f X fun e => f e + off e + r e - (f e + off e)) s
    rw [e1, e2, e3]

/-- in a mesh where geometry and opacities repeat with the period of the domain so do the radiation fluxes. -/
theorem radOf_periodic (ew em : ℝ) (rt : Method) (nd : ℕ) (dx : Fin 3 → ℝ) (sel : Fin M → Fin N) (js : Fin S → Fin M) (kap : Pos → (Fin N → ℝ) → Fin S → ℝ)
    (body : Fin 3 → Pos → FaceIn M S → ℕ → ℝ) (n : Fin 3 → ℕ) (hk : Periodic n kap) (hb : ∀ d, Periodic n (body d)) (d : Fin 3) :
    Periodic n (radOf ew em rt nd dx sel js kap body d) := by
  intro p q hpq
  funext st
  unfold radOf
  by_cases hd : d.val < nd
  swap
  · rw [if_neg hd, if_neg hd]
  rw [if_pos hd, if_pos hd, hb d p q hpq]
  congr 1
  refine ideal_near ew em rt (meshBlk nd) (meshBlk nd) rfl dx _ _ js _ _ d hd p q ?_ ?_
  · intro m r _
    simp only [add_sub_cancel_left]
  · intro s r _
    simp only [add_sub_cancel_left]
    rw [periodic_at n kap hk p q hpq r]

/-- the same for the kernel of the code: metric and opacities periodic. -/
theorem codeRad_periodic (ew em : ℝ) (rt : Method) (nd : ℕ) (dx : Fin 3 → ℝ) (small SMALL kmin : ℝ)
    (tp : Geom.ADM ℝ → (Fin 3 → ℝ) → ℝ → (Fin 3 → ℝ) → Fin 3 → Fin 3 → ℝ) (geo : Fin 3 → Pos → FaceGeom) (nspec : ℕ) (sel : Fin (4 * nspec + 3) → Fin N)
    (js : Fin nspec → Fin (4 * nspec + 3)) (kap : Pos → (Fin N → ℝ) → Fin nspec → ℝ) (n : Fin 3 → ℕ) (hgeo : ∀ d, Periodic n (geo d)) (hk : Periodic n kap) (d : Fin 3) :
    Periodic n (codeRad ew em rt nd dx small SMALL kmin tp geo nspec sel js kap d) := by
  refine radOf_periodic ew em rt nd dx sel js kap _ n hk (fun d p q hpq => ?_) d
  funext x
  unfold momentBody
  rw [hgeo d p q hpq]

/-- the slots written by the radiation: energy and momentum of species `k` at `radSlot k`, nothing in the slots of the fluid. -/
theorem radStore_slots (nspec : ℕ) (F : Fin nspec → ℝ × (Fin 3 → ℝ)) :
    (∀ k : Fin nspec, radStore nspec F (radSlot k 0) = (F k).1 ∧ ∀ l : Fin 3, radStore nspec F (radSlot k l.succ) = (F k).2 l) ∧ (∀ m < 9, radStore nspec F m = 0) ∧
      ∀ c, radStore nspec F (fluidSlot c) = 0 := by
  have z : ∀ m < 9, radStore nspec F m = 0 := fun m hm => by unfold radStore; rw [dif_neg (by omega)]
  refine ⟨fun k => ⟨?_, fun l => ?_⟩, z, fun c => z _ (by unfold fluidSlot; have := c.isLt; split_ifs <;> omega)⟩
  · have hk := k.isLt
    unfold radStore radSlot
    rw [dif_pos (by simp)]
    have e1 : (⟨(9 + 4 * (k : ℕ) + ((0 : Fin 4) : ℕ) - 9) / 4, by simp⟩ : Fin nspec) = k := Fin.ext (by simp)
    simp only [e1]
    simp
  · have hk := k.isLt
    have hl := l.isLt
    unfold radStore radSlot
    rw [dif_pos (by simp; omega)]
    have e1 : (⟨(9 + 4 * (k : ℕ) + (l.succ : ℕ) - 9) / 4, by simp; omega⟩ : Fin nspec) = k := Fin.ext (by simp; omega)
    have e2 : (9 + 4 * (k : ℕ) + (l.succ : ℕ) - 9) % 4 = l.val + 1 := by simp; omega
    have e3 : Fin.ofNat 3 (l.val + 1 - 1) = l := by ext; simp
    simp only [e1]
    rw [e2, if_neg (by omega), e3]

/-! ### Example -/

/-- where the example keeps its variables: one species in slots 9 to 12, velocities in 1 to 3. -/
def exSel : Fin (4 * 1 + 3) → Fin 13 := ![9, 10, 11, 12, 1, 2, 3]

/-- its radiation flux: that of the code with a uniform opacity. -/
noncomputable def exRad (nd : ℕ) : Fin 3 → Pos → (Pos → Fin 13 → ℝ) → ℕ → ℝ :=
  codeRad (1/100) 0 .linear nd (fun _ => 1/8) (1/100) (1/100) (1/100) (fun _ _ _ _ _ _ => 0) RadSweep.exGeo 1 exSel (fun _ => 0) (fun _ _ _ => 1)

theorem exRad_periodic (nd : ℕ) (n : Fin 3 → ℕ) (d : Fin 3) : Periodic n (exRad nd d) := by
  have h1 : ∀ d, Periodic n (RadSweep.exGeo d) := by intro d p q _; unfold RadSweep.exGeo; rfl
  have h2 : Periodic n (fun (_ : Pos) (_ : Fin 13 → ℝ) (_ : Fin 1) => (1:ℝ)) := by intro p q _; rfl
  unfold exRad
  exact codeRad_periodic (1/100) 0 .linear nd (fun _ => 1/8) (1/100) (1/100) (1/100) (fun _ _ _ _ _ _ => 0) RadSweep.exGeo 1 exSel (fun _ => 0)
    (fun _ _ _ => 1) n h1 h2 d

/-- the flow of `exFlow` with the radiation flux of the code. -/
noncomputable def exRadFlow (nd : ℕ) : Phys ℝ 13 :=
  { exFlow with rad := exRad nd }

/-- **C144** the hypotheses of `gas_radiation_total` are met with the radiation fluxes of the code, in every run. -/
theorem ex_code_rad (n : Fin 3 → ℕ) (nd : ℕ) (c : Fin 4) (est : Pos → (Fin 13 → ℝ) → (Fin 3 → ℝ × ℝ) → ℝ) (ctrl : ℕ → ℝ → Set ℝ → ℝ) (k : ℕ) (s : Glob ℝ 13 × ℝ) :
    RunGood n nd c est ctrl (fun _ _ => [(exExchange, exRadFlow nd), (exExchange, exRadFlow nd)]) 1 k s ∧
      AllPeriodic n { exRadFlow nd with mid := exExchange.mid } := by
  have hgood : ∀ p x, exExchange.Good p x := fun p x => ⟨rfl, rfl, fun _ _ => rfl, rfl⟩
  refine ⟨?_, ⟨⟨fun _ _ _ _ => rfl, fun _ _ _ _ => rfl, fun d => ?_, fun _ _ => rfl⟩, fun _ _ _ => rfl, fun _ _ _ => rfl, fun _ _ _ => rfl⟩⟩
  · intro j _ r E Q cur hm _ p _
    have : E = exExchange ∧ Q = exRadFlow nd := by simpa using hm
    obtain ⟨rfl, rfl⟩ := this
    exact ⟨rfl, hgood _ _, fun m _ => ⟨rfl, rfl, rfl⟩⟩
  · exact exRad_periodic nd n d

end Phoebus.Step
