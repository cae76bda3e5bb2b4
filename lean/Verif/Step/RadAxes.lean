import Verif.Step.RadFlux
import Verif.Step.Change
import Verif.Moments.Axes
import Verif.Sources.Axes

/-!
# C145: radiation transport in the run prefers no axis and no side
-/
namespace Phoebus.Step
open FluxSweep Closure Geom
open Phoebus.RadSweep (FaceIn FaceGeom momentBody)
variable {N : ℕ}

/-! ### Specification -/

/-- slot of the energy density of species `k` among the reconstructed variables. -/
def atJ (nspec : ℕ) (k : Fin nspec) : Fin (4 * nspec + 3) := ⟨k, by omega⟩

/-- slot of component `i` of its flux. -/
def atH (nspec : ℕ) (k : Fin nspec) (i : Fin 3) : Fin (4 * nspec + 3) := ⟨nspec + k.val + nspec * i.val, by
  have : nspec * i.val ≤ nspec * 2 := Nat.mul_le_mul_left _ (by omega)
  omega⟩

/-- slot of component `i` of the fluid velocity. -/
def atV (nspec : ℕ) (i : Fin 3) : Fin (4 * nspec + 3) := ⟨4 * nspec + i.val, by omega⟩

/-- `y'` are the reconstructed variables `y` in the new description. -/
def Renamed (A : Axes) (nspec : ℕ) (y y' : Fin (4 * nspec + 3) → ℝ) : Prop :=
  (∀ k, y' (atJ nspec k) = y (atJ nspec k)) ∧ (∀ k i, y' (atH nspec k i) = A.s i * y (atH nspec k (A.σ i))) ∧
    ∀ i, y' (atV nspec i) = A.s i * y (atV nspec (A.σ i))

/-- a face in the new description. -/
def geoNew (A : Axes) (g : FaceGeom) : FaceGeom := { g with G := A.geo g.G }

/-- reflection normal to `a`. -/
def mirAxes (a : Fin 3) : Axes := ⟨1, refl a, fun i => by unfold refl; split_ifs <;> simp⟩

/-- renaming of the axes. -/
def renAxes (σ : Equiv.Perm (Fin 3)) : Axes := ⟨σ, fun _ => 1, fun _ => Or.inl rfl⟩

/-! ### Kernel at a face -/

theorem body_axes (A : Axes) (small SMALL kmin : ℝ) (tp : ADM ℝ → Vec → ℝ → Vec → Tens2) (ht : ∀ G, Moments.Isotropic A (tp G) (tp (A.geo G)))
    (geo geo' : Fin 3 → Pos → FaceGeom) (nspec : ℕ) (d : Fin 3) (f f0 : Pos) (hg : geo' d f = geoNew A (geo (A.σ d) f0)) (x x' : FaceIn (4 * nspec + 3) nspec)
    (h1 : A.s d = 1 → Renamed A nspec x.l x'.l ∧ Renamed A nspec x.r x'.r ∧ x'.kl = x.kl ∧ x'.kr = x.kr)
    (h2 : A.s d = -1 → Renamed A nspec x.r x'.l ∧ Renamed A nspec x.l x'.r ∧ x'.kl = x.kr ∧ x'.kr = x.kl)
    (hJ : ∀ k, x'.dJ k = A.vec (x.dJ k)) (k : Fin nspec) :
    momentBody small SMALL kmin tp geo' nspec d f x' k = (A.s d * (momentBody small SMALL kmin tp geo nspec (A.σ d) f0 x k).1,
      fun j => A.s d * A.s j * (momentBody small SMALL kmin tp geo nspec (A.σ d) f0 x k).2 (A.σ j)) := by
  have rd : ∀ (geo : Fin 3 → Pos → FaceGeom) (d : Fin 3) (f : Pos) (y : FaceIn (4 * nspec + 3) nspec), momentBody small SMALL kmin tp geo nspec d f y k =
      Moments.faceFlux small SMALL kmin (tp (geo d f).G) ⟨(geo d f).G, (geo d f).sdet, (geo d f).dx, d, (geo d f).B,
        ⟨fun i => y.l (atV nspec i), y.l (atJ nspec k), fun i => y.l (atH nspec k i)⟩,
        ⟨fun i => y.r (atV nspec i), y.r (atJ nspec k), fun i => y.r (atH nspec k i)⟩, y.kl k, y.kr k, y.dJ k⟩ := by
    intro geo d f y
    exact RadSweep.moment_body_reads small SMALL kmin tp geo nspec d f y (fun i => y.l (atV nspec i)) (fun i => y.r (atV nspec i))
      (fun t => y.l (atJ nspec t)) (fun t => y.r (atJ nspec t)) (fun t i => y.l (atH nspec t i)) (fun t i => y.r (atH nspec t i))
      (fun t n hn => by have : n = atJ nspec t := Fin.ext hn; subst this; exact ⟨rfl, rfl⟩)
      (fun t i n hn => by have : n = atH nspec t i := Fin.ext hn; subst this; exact ⟨rfl, rfl⟩)
      (fun i n hn => by have : n = atV nspec i := Fin.ext hn; subst this; exact ⟨rfl, rfl⟩) k
  rw [rd geo', rd geo, hg, hJ]
  have key := Moments.faceFlux_axes (ht (geo (A.σ d) f0).G) small SMALL kmin d ⟨(geo (A.σ d) f0).G, (geo (A.σ d) f0).sdet, (geo (A.σ d) f0).dx, A.σ d, (geo (A.σ d) f0).B,
        ⟨fun i => x.l (atV nspec i), x.l (atJ nspec k), fun i => x.l (atH nspec k i)⟩,
        ⟨fun i => x.r (atV nspec i), x.r (atJ nspec k), fun i => x.r (atH nspec k i)⟩, x.kl k, x.kr k, x.dJ k⟩ rfl
  have side : ∀ y y' : Fin (4 * nspec + 3) → ℝ, Renamed A nspec y y' →
      (⟨fun i => y' (atV nspec i), y' (atJ nspec k), fun i => y' (atH nspec k i)⟩ : Moments.Side) =
        Moments.sideNew A ⟨fun i => y (atV nspec i), y (atJ nspec k), fun i => y (atH nspec k i)⟩ := by
    intro y y' h
    unfold Moments.sideNew Axes.vec
    simp only [Moments.Side.mk.injEq]
    exact ⟨funext h.2.2, h.1 k, funext (h.2.1 k)⟩
  rw [← key]
  unfold Moments.faceNew geoNew
  rcases A.sign d with hs | hs
  · obtain ⟨a1, a2, a3, a4⟩ := h1 hs
    simp only [if_pos hs, side _ _ a1, side _ _ a2, a3, a4]
  · obtain ⟨a1, a2, a3, a4⟩ := h2 hs
    have hn : ¬ A.s d = 1 := by rw [hs]; norm_num
    simp only [if_neg hn, side _ _ a1, side _ _ a2, a3, a4]

/-- the fluxes in their slots. -/
theorem radStore_axes (A : Axes) (nspec : ℕ) (t : ℝ) (F F' : Fin nspec → ℝ × (Fin 3 → ℝ)) (hF : ∀ k, F' k = (t * (F k).1, fun j => t * A.s j * (F k).2 (A.σ j)))
    (eta : ℕ → ℝ) (cv : ℕ → ℕ) (h0 : ∀ k < nspec, eta (radSlot k 0) = 1 ∧ cv (radSlot k 0) = radSlot k 0)
    (hi : ∀ k < nspec, ∀ i : Fin 3, eta (radSlot k i.succ) = A.s i ∧ cv (radSlot k i.succ) = radSlot k (A.σ i).succ)
    (ho : ∀ m, m < 9 ∨ 9 + 4 * nspec ≤ m → cv m < 9 ∨ 9 + 4 * nspec ≤ cv m) (m : ℕ) :
    radStore nspec F' m = t * (eta m * radStore nspec F (cv m)) := by
  have out : ∀ (F : Fin nspec → ℝ × (Fin 3 → ℝ)) m, m < 9 ∨ 9 + 4 * nspec ≤ m → radStore nspec F m = 0 := by
    intro F m hm; unfold radStore; rw [dif_neg (by omega)]
  by_cases h : m < 9 ∨ 9 + 4 * nspec ≤ m
  · rw [out _ _ h, out _ _ (ho m h)]; ring
  · have hk : (m - 9) / 4 < nspec := by omega
    have hm : m = 9 + 4 * ((m - 9) / 4) + (m - 9) % 4 := by omega
    have s1 := (radStore_slots nspec F).1 ⟨_, hk⟩
    have s2 := (radStore_slots nspec F').1 ⟨_, hk⟩
    by_cases hz : (m - 9) % 4 = 0
    · have e : m = radSlot ((m - 9) / 4) 0 := by unfold radSlot; simp; omega
      rw [e, (h0 _ hk).1, (h0 _ hk).2]
      have a1 := s1.1; have a2 := s2.1
      simp only at a1 a2
      rw [a1, a2, hF]; ring
    · have hlt : (m - 9) % 4 - 1 < 3 := by omega
      have e : m = radSlot ((m - 9) / 4) (Fin.succ ⟨(m - 9) % 4 - 1, hlt⟩) := by unfold radSlot; simp; omega
      rw [e, (hi _ hk _).1, (hi _ hk _).2]
      have a1 := s1.2 (A.σ ⟨(m - 9) % 4 - 1, hlt⟩); have a2 := s2.2 ⟨(m - 9) % 4 - 1, hlt⟩
      simp only at a1 a2
      rw [a1, a2, hF]; ring

/-! ### Gradients -/

/-- the gradient of `w` at face `f` in a form that treats all axes alike. -/
noncomputable def gradForm (x : Fin 3 → ℤ) (dx : Fin 3 → ℝ) (w : Pos → ℝ) (d c : Fin 3) (f : Pos) : ℝ :=
  if c = d then (w f - w fun e => f e - unit d e) * (1 / dx c)
  else (w (fun e => f e + x c * unit c e) + w (fun e => f e + x c * unit c e - unit d e) - w (fun e => f e + -x c * unit c e)
    - w fun e => f e + -x c * unit c e - unit d e) * (1 / 4 * (1 / dx c))

theorem gradAt_form {M S : ℕ} (b : Blk) (dx : Fin 3 → ℝ) (v : Fin M → Pos → ℝ) (js : Fin S → Fin M) (d c : Fin 3) (ha : b.act d) (s : Fin S) (f : Pos) :
    RadSweep.gradAt b dx v js d c s f = gradForm b.ext dx (v (js s)) d c f := by
  have h1 : (1.0:ℝ) = 1 := by norm_num
  have h4 : (0.25:ℝ) = 1 / 4 := by norm_num
  have h0 := RadSweep.ext_act (RadSweep.act_zero ha)
  have had := RadSweep.ext_act ha
  have eq : ∀ (p q : Pos), (∀ e, p e = q e) → v (js s) p = v (js s) q := fun p q h => by rw [funext h]
  have l0 : ∀ e : Fin 3, e = 0 ∨ e = 1 ∨ e = 2 := by intro e; omega
  unfold RadSweep.gradAt Moments.faceGrad RadSweep.jField gradForm
  rcases l0 d with rfl | rfl | rfl <;> rcases l0 c with rfl | rfl | rfl <;> dsimp only <;>
    simp only [h1, h4, had, if_true, Fin.isValue, zero_ne_one, one_ne_zero, reduceCtorEq, if_false, Fin.reduceEq, h0]
  all_goals refine congrArg₂ HMul.hMul ?_ rfl
  all_goals first
    | refine congrArg₂ HSub.hSub (congrArg₂ HSub.hSub (congrArg₂ HAdd.hAdd ?_ ?_) ?_) ?_
    | refine congrArg₂ HSub.hSub ?_ ?_
  all_goals refine eq _ _ fun e => ?_
  all_goals rcases l0 e with rfl | rfl | rfl <;> simp [unit] <;> ring

theorem idx_mirror (a c d e : Fin 3) (hcd : c ≠ d) (s x k l : ℤ) :
    (if e = a then s - 1 - (x + k * (if e = c then 1 else 0) - l * if e = d then 1 else 0) else x + k * (if e = c then 1 else 0) - l * if e = d then 1 else 0) =
      (if e = a then (if d = a then s else s - 1) - x else x) + (if c = a then -k else k) * (if e = c then 1 else 0) -
        (if d = a then 1 - l else l) * if e = d then 1 else 0 := by
  by_cases h1 : e = a <;> by_cases h2 : e = c <;> by_cases h3 : e = d
  all_goals first
    | (exfalso; exact hcd (h2.symm.trans h3))
    | skip
  all_goals simp only [h1, h2, h3, if_true, if_false]
  all_goals subst_vars
  all_goals simp_all
  all_goals try split_ifs
  all_goals first | omega | (exfalso; simp_all; done) | (simp_all; done)

theorem grad_mirror (Z : Plane ℝ N) (x : Fin 3 → ℤ) (dx : Fin 3 → ℝ) (w : Pos → ℝ) (d c : Fin 3) (p : Pos) :
    gradForm x dx (fun q => w (Z.cell q)) d c p = refl Z.a c * gradForm x dx w d c (Z.face d p) := by
  have cell0 : ∀ k : ℤ, c ≠ d → Z.cell (fun e => p e + k * unit c e) =
      if d = Z.a then (fun e => Z.face d p e + (if c = Z.a then -k else k) * unit c e - unit d e) else fun e => Z.face d p e + (if c = Z.a then -k else k) * unit c e := by
    intro k hcd
    have h := fun e => idx_mirror Z.a c d e hcd Z.s (p e) k 0
    by_cases hd : d = Z.a
    · rw [if_pos hd]; funext e; have := h e
      simp only [if_pos hd, zero_mul, sub_zero, one_mul] at this
      simp only [Plane.cell, Plane.face, unit, if_pos hd]; exact this
    · rw [if_neg hd]; funext e; have := h e
      simp only [if_neg hd, zero_mul, sub_zero] at this
      simp only [Plane.cell, Plane.face, unit, if_neg hd]; exact this
  have cell1 : ∀ k : ℤ, c ≠ d → Z.cell (fun e => p e + k * unit c e - unit d e) =
      if d = Z.a then (fun e => Z.face d p e + (if c = Z.a then -k else k) * unit c e) else fun e => Z.face d p e + (if c = Z.a then -k else k) * unit c e - unit d e := by
    intro k hcd
    have h := fun e => idx_mirror Z.a c d e hcd Z.s (p e) k 1
    by_cases hd : d = Z.a
    · rw [if_pos hd]; funext e; have := h e
      simp only [if_pos hd, sub_self, zero_mul, sub_zero, one_mul] at this
      simp only [Plane.cell, Plane.face, unit, if_pos hd]; exact this
    · rw [if_neg hd]; funext e; have := h e
      simp only [if_neg hd, one_mul] at this
      simp only [Plane.cell, Plane.face, unit, if_neg hd]; exact this
  unfold gradForm refl
  by_cases hcd : c = d
  · subst hcd
    simp only [if_true]
    by_cases ha : c = Z.a
    · have e1 : Z.cell p = fun e => Z.face c p e - unit c e := by
        funext e; unfold Plane.cell Plane.face unit; rw [ha]; beta_reduce; split_ifs <;> omega
      have e2 : (Z.cell fun e => p e - unit c e) = Z.face c p := by
        funext e; unfold Plane.cell Plane.face unit; rw [ha]; beta_reduce; split_ifs <;> omega
      rw [if_pos ha, e1, e2]; ring
    · have e1 : Z.cell p = Z.face c p := by
        funext e; unfold Plane.cell Plane.face; rw [if_neg ha]
      have e2 : (Z.cell fun e => p e - unit c e) = fun e => Z.face c p e - unit c e := by
        funext e; unfold Plane.cell Plane.face unit; rw [if_neg ha]
        by_cases he : e = Z.a
        · subst he; simp only [if_true, Ne.symm ha, if_false]; ring
        · simp only [he, if_false]
      rw [if_neg ha, e1, e2]; ring
  · simp only [if_neg hcd, cell0 _ hcd, cell1 _ hcd]
    by_cases hd : d = Z.a
    · have hc : c ≠ Z.a := fun h => hcd (h.trans hd.symm)
      simp only [if_pos hd, if_neg hc]; ring
    · by_cases hc : c = Z.a
      · simp only [if_neg hd, if_pos hc, neg_neg]; ring
      · simp only [if_neg hd, if_neg hc]; ring

theorem grad_change {N : ℕ} (Z : Change ℝ N) (x x' : Fin 3 → ℤ) (hx : ∀ c, x' c = x (Z.ax c)) (dx dx' : Fin 3 → ℝ) (hdx : ∀ c, dx' c = dx (Z.ax c)) (w : Pos → ℝ)
    (d c : Fin 3) (p : Pos) : gradForm x' dx' (fun q => w (Z.cell q)) d c p = gradForm x dx w (Z.ax d) (Z.ax c) (Z.cell p) := by
  have h1 : ∀ k : ℤ, (Z.cell fun e => p e + k * unit c e - unit d e) = fun e => Z.cell p e + k * unit (Z.ax c) e - unit (Z.ax d) e := by
    intro k
    have := cell_shift Z (fun e => p e + k * unit c e) (-1) d
    rw [cell_shift Z p k c] at this
    simpa [sub_eq_add_neg] using this
  unfold gradForm
  simp only [cell_shift, h1, cell_down, Z.ax.injective.eq_iff, hx, hdx]

/-! ### Runs -/

/-- **C145** the radiation fluxes of the code in the mirrored run: the hypothesis `rad` of `Symmetric`. -/
theorem codeRad_mirror (Z : Plane ℝ N) (he : ∀ n, Z.eps n = 1 ∨ Z.eps n = -1) (ew em : ℝ) (rt : Method) (nd : ℕ) (dx : Fin 3 → ℝ) (small SMALL kmin : ℝ)
    (tp : ADM ℝ → Vec → ℝ → Vec → Tens2) (ht : ∀ G, Moments.Isotropic (mirAxes Z.a) (tp G) (tp ((mirAxes Z.a).geo G))) (geo : Fin 3 → Pos → FaceGeom)
    (hg : ∀ d p, geo d p = geoNew (mirAxes Z.a) (geo d (Z.face d p))) (nspec : ℕ) (sel : Fin (4 * nspec + 3) → Fin N) (js : Fin nspec → Fin (4 * nspec + 3))
    (hj : ∀ k, js k = atJ nspec k) (hJ : ∀ k, Z.eps (sel (atJ nspec k)) = 1) (hH : ∀ k i, Z.eps (sel (atH nspec k i)) = refl Z.a i)
    (hV : ∀ i, Z.eps (sel (atV nspec i)) = refl Z.a i) (kap : Pos → (Fin N → ℝ) → Fin nspec → ℝ) (hk : ∀ p v, kap p (fun n => Z.eps n * v n) = kap (Z.cell p) v)
    (h0 : ∀ k < nspec, Z.eta (radSlot k 0) = 1) (hi : ∀ k < nspec, ∀ i : Fin 3, Z.eta (radSlot k i.succ) = refl Z.a i) (d : Fin 3) (p : Pos) (st : Pos → Fin N → ℝ) (m : ℕ) :
    codeRad ew em rt nd dx small SMALL kmin tp geo nspec sel js kap d p (Z.around d st) m =
      (if d = Z.a then -1 else 1) * Z.eta m * codeRad ew em rt nd dx small SMALL kmin tp geo nspec sel js kap d (Z.face d p) st m := by
  unfold codeRad radOf
  by_cases hd : d.val < nd
  swap
  · rw [if_neg hd, if_neg hd]; simp
  rw [if_pos hd, if_pos hd]
  have hs : (if d = Z.a then (-1:ℝ) else 1) = (mirAxes Z.a).s d := rfl
  rw [hs, mul_assoc]
  refine radStore_axes (mirAxes Z.a) nspec ((mirAxes Z.a).s d) _ _ (fun k => ?_) Z.eta id (fun k hk => ⟨h0 k hk, rfl⟩) (fun k hk i => ⟨hi k hk i, rfl⟩) (fun m h => h) m
  have cellp : ∀ c, (fun e => Z.cell c e - Z.face d p e) = fun e => if e = Z.a then (if d = Z.a then -1 else 0) - (c e - p e) else c e - p e := by
    intro c; funext e; unfold Plane.cell Plane.face
    by_cases he : e = Z.a
    · simp only [he, if_true]; split_ifs <;> ring
    · simp only [he, if_false]
  let Z' : Plane ℝ (4 * nspec + 3) := ⟨Z.a, Z.s, fun n => Z.eps (sel n), Z.eta⟩
  have hv : (fun n c => Z.around d st (fun e => c e - p e) (sel n)) = fun n c => Z'.eps n * (fun n c => st (fun e => c e - Z.face d p e) (sel n)) n (Z'.cell c) := by
    funext n c
    show _ = Z.eps (sel n) * st (fun e => Z.cell c e - Z.face d p e) (sel n)
    rw [cellp]; rfl
  have hkap : ∀ s c, kap c (Z.around d st fun e => c e - p e) s = kap (Z.cell c) (st fun e => Z.cell c e - Z.face d p e) s := by
    intro s c
    rw [cellp, ← hk]; rfl
  have ren : ∀ y : Fin (4 * nspec + 3) → ℝ, Renamed (mirAxes Z.a) nspec y fun n => Z'.eps n * y n := by
    intro y
    refine ⟨fun k => ?_, fun k i => ?_, fun i => ?_⟩
    · show Z.eps (sel (atJ nspec k)) * _ = _; rw [hJ, one_mul]
    · show Z.eps (sel (atH nspec k i)) * _ = _; rw [hH]; rfl
    · show Z.eps (sel (atV nspec i)) * _ = _; rw [hV]; rfl
  refine body_axes (mirAxes Z.a) small SMALL kmin tp ht geo geo nspec d p (Z.face d p) (hg d p) _ _ (fun h1 => ?_) (fun h2 => ?_) (fun k => ?_) k
  · have hda : d ≠ Z.a := fun e => by rw [← hs, if_pos e] at h1; norm_num at h1
    obtain ⟨a1, a2⟩ := states_t Z' (fun n => he _) ew em rt (fun n c => st (fun e => c e - Z.face d p e) (sel n)) d hda p
    have c1 : (Z.cell fun e => p e - unit d e) = fun e => Z.face d p e - unit d e := by
      funext e
      unfold Plane.cell Plane.face unit
      by_cases he : e = Z.a
      · subst he; simp only [if_true, hda, Ne.symm hda, if_false]; ring
      · simp only [he, if_false]
    have c2 : Z.cell p = Z.face d p := by
      funext e
      unfold Plane.cell Plane.face
      rw [if_neg hda]
    unfold RadSweep.ideal
    simp only [hv, a1, a2]
    refine ⟨ren _, ren _, ?_, ?_⟩
    · funext s
      rw [hkap, c1]
    · funext s
      rw [hkap, c2]
  · have hda : d = Z.a := by
      by_contra e; rw [← hs, if_neg e] at h2; norm_num at h2
    subst hda
    obtain ⟨a1, a2⟩ := states_n Z' (fun n => he _) ew em rt (fun n c => st (fun e => c e - Z.face Z.a p e) (sel n)) p
    change stateL (kernel ew em rt) (fun n c => Z'.eps n * _) Z.a p = fun n => Z'.eps n * stateR (kernel ew em rt) _ Z.a (Z.face Z.a p) n at a1
    change stateR (kernel ew em rt) (fun n c => Z'.eps n * _) Z.a p = fun n => Z'.eps n * stateL (kernel ew em rt) _ Z.a (Z.face Z.a p) n at a2
    have c1 : (Z.cell fun e => p e - unit Z.a e) = Z.face Z.a p := by
      funext e
      unfold Plane.cell Plane.face unit
      by_cases he : e = Z.a
      · simp only [he, if_true]; ring
      · simp only [he, if_false]; ring
    have c2 : Z.cell p = fun e => Z.face Z.a p e - unit Z.a e := by
      funext e
      unfold Plane.cell Plane.face unit
      by_cases he : e = Z.a
      · simp only [he, if_true]; ring
      · simp only [he, if_false]; ring
    unfold RadSweep.ideal
    simp only [hv, a1, a2]
    refine ⟨ren _, ren _, ?_, ?_⟩
    · funext s
      rw [hkap, c1]
    · funext s
      rw [hkap, c2]
  · funext c
    show RadSweep.gradAt _ _ _ _ d c k p = refl Z.a c * RadSweep.gradAt _ _ _ _ d c k _
    rw [gradAt_form (meshBlk nd) _ _ _ _ _ hd, gradAt_form (meshBlk nd) _ _ _ _ _ hd, ← grad_mirror, hj]
    congr 1
    funext q
    have := congrFun (congrFun hv (atJ nspec k)) q
    rw [this]
    show Z.eps (sel (atJ nspec k)) * _ = _
    rw [hJ, one_mul]; rfl

/-- **C145** the radiation fluxes of the code in the run with renamed axes: the hypothesis `rad` of `Changed`. -/
theorem codeRad_change (Z : Change ℝ N) (ew em : ℝ) (rt : Method) (nd : ℕ) (hact : ∀ d, (Z.ax d).val < nd ↔ d.val < nd) (dx : Fin 3 → ℝ) (small SMALL kmin : ℝ)
    (tp : ADM ℝ → Vec → ℝ → Vec → Tens2) (ht : ∀ G, Moments.Isotropic (renAxes Z.ax) (tp G) (tp ((renAxes Z.ax).geo G))) (geo : Fin 3 → Pos → FaceGeom) (nspec : ℕ)
    (sel : Fin (4 * nspec + 3) → Fin N) (js : Fin nspec → Fin (4 * nspec + 3)) (hj : ∀ k, js k = atJ nspec k) (h1 : ∀ n, Z.eps (sel n) = 1)
    (hJ : ∀ k, Z.pv (sel (atJ nspec k)) = sel (atJ nspec k)) (hH : ∀ k i, Z.pv (sel (atH nspec k i)) = sel (atH nspec k (Z.ax i)))
    (hV : ∀ i, Z.pv (sel (atV nspec i)) = sel (atV nspec (Z.ax i))) (kap kap' : Pos → (Fin N → ℝ) → Fin nspec → ℝ)
    (hk : ∀ p v, kap' p (Z.prim v) = kap (Z.cell p) v) (h0 : ∀ k < nspec, Z.eta (radSlot k 0) = 1 ∧ Z.cv (radSlot k 0) = radSlot k 0)
    (hi : ∀ k < nspec, ∀ i : Fin 3, Z.eta (radSlot k i.succ) = 1 ∧ Z.cv (radSlot k i.succ) = radSlot k (Z.ax i).succ)
    (ho : ∀ m, m < 9 ∨ 9 + 4 * nspec ≤ m → Z.cv m < 9 ∨ 9 + 4 * nspec ≤ Z.cv m) (d : Fin 3) (p : Pos) (st : Pos → Fin N → ℝ) (m : ℕ) :
    codeRad ew em rt nd (fun d => dx (Z.ax d)) small SMALL kmin tp (fun d p => geoNew (renAxes Z.ax) (geo (Z.ax d) (Z.cell p))) nspec sel js kap' d p
        (fun r => Z.prim (st (Z.cell r))) m =
      Z.cons (codeRad ew em rt nd dx small SMALL kmin tp geo nspec sel js kap (Z.ax d) (Z.cell p) st) m := by
  unfold codeRad radOf Change.cons
  by_cases hd : d.val < nd
  swap
  · rw [if_neg hd, if_neg (fun h => hd ((hact d).1 h))]; simp
  have hd' := (hact d).2 hd
  rw [if_pos hd, if_pos hd', ← one_mul (Z.eta m * _)]
  refine radStore_axes (renAxes Z.ax) nspec 1 _ _ (fun k => ?_) Z.eta Z.cv h0 hi ho m
  have ren : ∀ y : Fin N → ℝ, Renamed (renAxes Z.ax) nspec (fun n => y (sel n)) fun n => Z.prim y (sel n) := by
    intro y
    refine ⟨fun k => ?_, fun k i => ?_, fun i => ?_⟩
    · simp only [Change.prim, h1, hJ, one_mul]
    · simp only [Change.prim, h1, hH, one_mul]; simp [renAxes]
    · simp only [Change.prim, h1, hV, one_mul]; simp [renAxes]
  have cellp : ∀ c : Pos, (Z.cell fun e => c e - p e) = fun e => Z.cell c e - Z.cell p e := fun c => rfl
  have hS : ∀ n q, (stateL (kernel ew em rt) (fun n c => Z.prim (st (Z.cell fun e => c e - p e)) (sel n)) d q n =
      stateL (kernel ew em rt) (fun (n : Fin N) c => st (fun e => c e - Z.cell p e) n) (Z.ax d) (Z.cell q) (Z.pv (sel n))) ∧
      stateR (kernel ew em rt) (fun n c => Z.prim (st (Z.cell fun e => c e - p e)) (sel n)) d q n =
      stateR (kernel ew em rt) (fun (n : Fin N) c => st (fun e => c e - Z.cell p e) n) (Z.ax d) (Z.cell q) (Z.pv (sel n)) := by
    intro n q
    unfold stateL stateR
    simp only [cellp, cell_shift, Change.prim, h1, one_mul, and_self]
  have key := body_axes (renAxes Z.ax) small SMALL kmin tp ht geo (fun d p => geoNew (renAxes Z.ax) (geo (Z.ax d) (Z.cell p))) nspec d p (Z.cell p) rfl
    (RadSweep.ideal (kernel ew em rt) (meshBlk nd) dx (fun n c => st (fun e => c e - Z.cell p e) (sel n)) js (fun s c => kap c (st fun e => c e - Z.cell p e) s) (Z.ax d)
      (Z.cell p))
    (RadSweep.ideal (kernel ew em rt) (meshBlk nd) (fun d => dx (Z.ax d)) (fun n c => Z.prim (st (Z.cell fun e => c e - p e)) (sel n)) js
      (fun s c => kap' c (Z.prim (st (Z.cell fun e => c e - p e))) s) d p) (fun _ => ?_) (fun h => by norm_num [renAxes] at h) (fun k => ?_) k
  · exact key
  · refine ⟨?_, ?_, ?_, ?_⟩
    · refine ⟨fun k => ?_, fun k i => ?_, fun i => ?_⟩
      · dsimp only [RadSweep.ideal]; rw [(hS _ p).1, hJ]; rfl
      · dsimp only [RadSweep.ideal]; rw [(hS _ p).1, hH]; exact (one_mul _).symm
      · dsimp only [RadSweep.ideal]; rw [(hS _ p).1, hV]; exact (one_mul _).symm
    · refine ⟨fun k => ?_, fun k i => ?_, fun i => ?_⟩
      · dsimp only [RadSweep.ideal]; rw [(hS _ p).2, hJ]; rfl
      · dsimp only [RadSweep.ideal]; rw [(hS _ p).2, hH]; exact (one_mul _).symm
      · dsimp only [RadSweep.ideal]; rw [(hS _ p).2, hV]; exact (one_mul _).symm
    · funext s
      show kap' (fun e => p e - unit d e) (Z.prim _) s = kap _ _ s
      rw [hk, cell_down, cellp, cell_down]
    · funext s
      show kap' p (Z.prim _) s = kap _ _ s
      rw [hk]; rfl
  · funext c
    dsimp only [RadSweep.ideal, Axes.vec, renAxes]
    rw [gradAt_form (meshBlk nd) _ _ _ _ _ hd, gradAt_form (meshBlk nd) _ _ _ _ _ hd', one_mul,
      ← grad_change Z (meshBlk nd).ext (meshBlk nd).ext (fun c => by
        unfold Blk.ext Blk.act meshBlk
        simp only [hact]) dx _ (fun _ => rfl)]
    congr 1
    funext q
    rw [hj]
    show Z.eps _ * _ = _
    rw [h1, one_mul, hJ]; rfl

/-! ### Examples -/

/-- signs of the 13 variables of the example. -/
def exSigns (a : Fin 3) : Fin 13 → ℝ := ![1, refl a 0, refl a 1, refl a 2, 1, 1, 1, 1, 1, 1, refl a 0, refl a 1, refl a 2]

/-- mirror plane of the example with one species. -/
def exPlane (a : Fin 3) (s : ℤ) : Plane ℝ 13 :=
  ⟨a, s, exSigns a, fun m => if m = 1 ∨ m = 10 then refl a 0 else if m = 2 ∨ m = 11 then refl a 1 else if m = 3 ∨ m = 12 then refl a 2 else 1⟩

/-- the hypotheses of `codeRad_mirror` are met in flat space, with the Eddington and with the M1 closure. -/
theorem ex_rad_mirror (m1 : Bool) (nd : ℕ) (a : Fin 3) (s : ℤ) (d : Fin 3) (p : Pos) (st : Pos → Fin 13 → ℝ) (m : ℕ) :
    let tp := if m1 then tilPiFromPrim (1/100) else fun _ _ _ _ _ _ => 0
    let F := codeRad (1/100) 0 .linear nd (fun _ => 1/8) (1/100) (1/100) (1/100) tp RadSweep.exGeo 1 exSel (fun _ => 0) (fun _ v _ => v 0)
    F d p ((exPlane a s).around d st) m = (if d = a then -1 else 1) * (exPlane a s).eta m * F d ((exPlane a s).face d p) st m := by
  intro tp F
  have hr : ∀ i, refl a i = 1 ∨ refl a i = -1 := fun i => by unfold refl; split_ifs <;> simp
  refine codeRad_mirror (exPlane a s) (fun n => ?_) (1/100) 0 .linear nd (fun _ => 1/8) (1/100) (1/100) (1/100) tp (fun G => ?_) RadSweep.exGeo (fun d p => ?_) 1 exSel
    (fun _ => 0) (fun k => ?_) (fun k => ?_) (fun k i => ?_) (fun i => ?_) (fun _ v _ => v 0) (fun p v => ?_) (fun k hk => ?_) (fun k hk i => ?_) d p st m
  · show exSigns a n = 1 ∨ exSigns a n = -1
    fin_cases n <;> simp [exSigns, Matrix.cons_val, hr]
  · simp only [tp]
    split_ifs
    · exact (Moments.closures_isotropic _ _ G).2
    · exact (Moments.closures_isotropic (mirAxes a) (1/100) G).1
  · have hG : (RadSweep.exGeo d ((exPlane a s).face d p)) = RadSweep.exGeo d p := rfl
    rw [hG]
    unfold geoNew Axes.geo mirAxes Axes.vec Axes.ten RadSweep.exGeo C2P.flat
    simp only [RadSweep.FaceGeom.mk.injEq, ADM.mk.injEq, and_true, true_and]
    have hs : ∀ i, refl (exPlane a s).a i * refl (exPlane a s).a i = 1 := fun i => by
      rcases hr i with e | e <;> (show refl a i * refl a i = 1) <;> rw [e] <;> norm_num
    refine ⟨?_, ?_, ?_⟩ <;> funext i <;> (try funext j) <;> simp <;> (by_cases h : i = j; (subst h; simp [hs]); simp [h])
  · have := k.isLt; ext; simp [atJ]
  · have : k = 0 := Subsingleton.elim _ _
    subst this
    simp [exPlane, exSigns, exSel, atJ, Matrix.cons_val]
  · have : k = 0 := Subsingleton.elim _ _
    subst this
    fin_cases i <;> simp [exPlane, exSigns, exSel, atH, Matrix.cons_val]
  · fin_cases i <;> simp [exPlane, exSigns, exSel, atV, Matrix.cons_val]
  · funext k; simp [exPlane, exSigns]
  · have : k = 0 := by omega
    subst this; simp [exPlane, radSlot]
  · have : k = 0 := by omega
    subst this; fin_cases i <;> simp [exPlane, radSlot]

end Phoebus.Step
