import Verif.Step.Model

/-!
# C130: a run gives the same result in every decomposition of the mesh, in every schedule and whatever memory contained before
-/
namespace Phoebus.Step
open FluxSweep
variable {K : Type} [Field K] [LinearOrder K] {N : ℕ}

/-! ### Specification: the same scheme on one global array without blocks, ghost cells, scratch memory or loops -/

/-- Riemann flux of the reconstructed states at every face. -/
def refFlux (P : Phys K N) (X : Fields K N) : Fin 3 → Pos → ℕ → K := fun d p =>
  P.S d p (stateL (kernel P.ew P.em P.rt) (fun n c => (X c).2 n) d p) (stateR (kernel P.ew P.em P.rt) (fun n c => (X c).2 n) d p)

/-- electromotive force at the edge shared by faces of directions `a` and `b`: mean of the fluxes at the four adjacent faces. -/
def emfAt (Φ : Fin 3 → Pos → ℕ → K) (b0 : ℕ) (a b : Fin 3) (p : Pos) : K :=
  (1/4) * (Φ a p (b0 + b.val) + Φ a (fun e => p e - unit b e) (b0 + b.val) - Φ b p (b0 + a.val) - Φ b (fun e => p e - unit a e) (b0 + a.val))

/-- constrained transport: the flux of field component `c` through a face of direction `d` is the mean of the electromotive forces of the two
edges; there is none through faces normal to the component. -/
def refCT (nd : ℕ) (mhd : Option ℕ) (Φ : Fin 3 → Pos → ℕ → K) : Fin 3 → Pos → ℕ → K := fun d p m =>
  match mhd with
  | none => Φ d p m
  | some b0 =>
    if h : (nd = 2 ∨ nd = 3) ∧ b0 ≤ m ∧ m < b0 + nd ∧ m < b0 + 3 then
      let c : Fin 3 := ⟨m - b0, by omega⟩
      if d = c then 0 else (1/2) * (emfAt Φ b0 d c p + emfAt Φ b0 d c fun e => p e + unit c e)
    else Φ d p m

/-- flux divergence. -/
def refDiv (nd : ℕ) (dx : Fin 3 → K) (F : Fin 3 → Pos → ℕ → K) (m : ℕ) (p : Pos) : K :=
  -∑ d : Fin 3, if d.val < nd then (F d (fun e => p e + unit d e) m - F d p m) / dx d else 0

/-- all fluxes with constrained transport, those of the radiation and the changes at physical boundaries. -/
noncomputable def refAll (nd : ℕ) (P : Phys K N) (X : Fields K N) : Fin 3 → Pos → ℕ → K := fun d p =>
  P.fix d p fun m => refCT nd P.mhd (refFlux P X) d p m + P.rad d p (near nd P.rt d p X) m

/-- signal speed of the reconstructed states at every face. -/
def refSpeed (P : Phys K N) (X : Fields K N) : Fin 3 → Pos → K := fun d p =>
  P.sig d p (stateL (kernel P.ew P.em P.rt) (fun n c => (X c).2 n) d p) (stateR (kernel P.ew P.em P.rt) (fun n c => (X c).2 n) d p)

/-- update, first inversion and exchange with radiation at position `p`. -/
noncomputable def refUpdate (nd : ℕ) (P : Phys K N) (dt : K) (base cur : Fields K N) : Fields K N := fun p =>
  P.mid p (P.inv p fun m => P.beta * (cur p).1 m + (1 - P.beta) * (base p).1 m
    + P.beta * dt * (refDiv nd P.dx (refAll nd P cur) m p + P.src p (cur p).2 m))

/-- variables after a stage on the global array. -/
noncomputable def refFields (nd : ℕ) (wrap : Pos → Pos) (dt : K) (base cur : Fields K N) (P : Phys K N) : Fields K N := fun p =>
  let A := refUpdate nd P dt base cur
  P.inv p (if wrap p = p then A p else P.bnd p (A (wrap p))).1

/-- state of the global array: variables and face signal speeds. -/
abbrev Glob (K : Type) (N : ℕ) := Fields K N × (Fin 3 → Pos → K)

/-- stage on the global array. -/
noncomputable def refStage (nd : ℕ) (wrap : Pos → Pos) (dt : K) (base : Fields K N) (cur : Glob K N) (P : Phys K N) : Glob K N :=
  (refFields nd wrap dt base cur.1 P, refSpeed P cur.1)

/-- step on the global array. -/
noncomputable def refStep (nd : ℕ) (wrap : Pos → Pos) (dt : K) (sts : List (Phys K N)) (X : Glob K N) : Glob K N :=
  sts.foldl (refStage nd wrap dt X.1) X

/-- local time step estimates of all cells of the domain. -/
def refEstimates (nd : ℕ) (Dom : Pos → Prop) (est : Pos → (Fin N → K) → (Fin 3 → K × K) → K) (X : Glob K N) : Set K :=
  {t | ∃ p, Dom p ∧ t = est p (X.1 p).2 fun d => if d.val < nd then (X.2 d p, X.2 d fun e => p e + unit d e) else (0, 0)}

/-- run on the global array; `Dom` is the set of cells of the domain. -/
noncomputable def refRun (nd : ℕ) (Dom : Pos → Prop) (wrap : Pos → Pos) (est : Pos → (Fin N → K) → (Fin 3 → K × K) → K) (ctrl : ℕ → K → Set K → K)
    (prog : ℕ → K → List (Phys K N)) : ℕ → Glob K N × K → Glob K N × K
  | 0, s => s
  | n + 1, s =>
    let r := refRun nd Dom wrap est ctrl prog n s
    let X := refStep nd wrap r.2 (prog n r.2) r.1
    (X, ctrl n r.2 (refEstimates nd Dom est X))

/-- the blocks tile the domain: all have the same dimension and number of ghost cells; interior cells belong to the domain; every cell of the
domain is an interior cell of its owner; every position has its image in the domain, cells of the domain are their own image. -/
structure Tiles {B : Type} (G : Grid B) (nd : ℕ) (g : ℤ) (Dom : Pos → Prop) : Prop where
  ndim : ∀ i, (G.shape i).ndim = nd
  ghosts : ∀ i, (G.shape i).g = g
  inside : ∀ i c, (G.shape i).Interior c → Dom fun e => c e + G.off i e
  owned : ∀ p, Dom p → (G.shape (G.own p)).Interior fun e => p e - G.off (G.own p) e
  wrapped : ∀ p, Dom (G.wrap p)
  fixed : ∀ p, Dom p → G.wrap p = p

/-- every block holds, ghost cells included, the values of the global array at its place, and the signal speeds at the faces of its cells. -/
def Holds {B : Type} (G : Grid B) (X : Mesh K N B) (Y : Glob K N) : Prop :=
  (∀ i c, (G.shape i).Entire c → X.1 i c = Y.1 fun e => c e + G.off i e) ∧
  ∀ i d f, Used (G.shape i) d f → X.2 i d f = Y.2 d fun e => f e + G.off i e

/-- the parallel loop of every block executes each of its iterations. -/
def Complete {B : Type} (G : Grid B) (mem : ℕ → ℕ → B → Mem K N) : Prop := ∀ n k i, Covers (G.shape i) (mem n k i).order

/-! ### Fluxes of a block -/

theorem pos_eta (f : Pos) : ![f 0, f 1, f 2] = f := by
  funext d; fin_cases d <;> rfl

theorem vec_up (i j k : ℤ) :
    ((fun e => (![i, j, k] : Pos) e + unit 0 e) = ![i + 1, j, k]) ∧ ((fun e => (![i, j, k] : Pos) e + unit 1 e) = ![i, j + 1, k]) ∧
    ((fun e => (![i, j, k] : Pos) e + unit 2 e) = ![i, j, k + 1]) ∧ ((fun e => (![i, j, k] : Pos) e - unit 0 e) = ![i - 1, j, k]) ∧
    ((fun e => (![i, j, k] : Pos) e - unit 1 e) = ![i, j - 1, k]) ∧ ((fun e => (![i, j, k] : Pos) e - unit 2 e) = ![i, j, k - 1]) := by
  refine ⟨?_, ?_, ?_, ?_, ?_, ?_⟩ <;> (funext d; fin_cases d <;> simp [unit])

theorem vec_mix (i j k : ℤ) :
    ((fun e => (![i, j, k] : Pos) e + unit 0 e - unit 1 e) = ![i + 1, j - 1, k]) ∧
    ((fun e => (![i, j, k] : Pos) e + unit 0 e - unit 2 e) = ![i + 1, j, k - 1]) ∧
    ((fun e => (![i, j, k] : Pos) e + unit 1 e - unit 0 e) = ![i - 1, j + 1, k]) ∧
    ((fun e => (![i, j, k] : Pos) e + unit 1 e - unit 2 e) = ![i, j + 1, k - 1]) ∧
    ((fun e => (![i, j, k] : Pos) e + unit 2 e - unit 0 e) = ![i - 1, j, k + 1]) ∧
    ((fun e => (![i, j, k] : Pos) e + unit 2 e - unit 1 e) = ![i, j - 1, k + 1]) := by
  refine ⟨?_, ?_, ?_, ?_, ?_, ?_⟩ <;> (funext d; fin_cases d <;> simp [unit])

theorem states_global (P : Phys K N) (b : Blk) (hg : 1 + radius P.rt ≤ b.g) (off : Pos) (v V : Fin N → Pos → K)
    (hv : ∀ n c, b.Entire c → v n c = V n fun e => c e + off e) (d : Fin 3) (f : Pos) (hu : Used b d f) :
    stateL (kernel P.ew P.em P.rt) v d f = stateL (kernel P.ew P.em P.rt) V d (fun e => f e + off e) ∧
    stateR (kernel P.ew P.em P.rt) v d f = stateR (kernel P.ew P.em P.rt) V d (fun e => f e + off e) := by
  constructor
  · funext n
    unfold stateL
    rw [kernel_congr P.ew P.em P.rt _ (fun m => V n fun e => (f e + off e) + (m - 1) * unit d e)]
    intro k hk
    have hin := stencil_inside b P.rt hg _ (used_loop b d f hu).2 d hu.1 k hk
    have hp : (fun e => f e + (k - 1) * unit d e) = fun e => f e - unit d e + k * unit d e := by funext e; ring
    rw [hp, hv n _ hin]
    congr 1; funext e; ring
  · funext n
    unfold stateR
    rw [kernel_congr P.ew P.em P.rt _ (fun m => V n fun e => (f e + off e) + m * unit d e)]
    intro k hk
    rw [hv n _ (stencil_inside b P.rt hg _ (used_loop b d f hu).1 d hu.1 k hk)]
    congr 1; funext e; ring

open Classical in
/-- fluxes before constrained transport. -/
theorem raw_flux (P : Phys K N) (b : Blk) (hg : 1 + radius P.rt ≤ b.g) (off : Pos) (M : Mem K N) (ho : Covers b M.order) (X Y : Fields K N)
    (hX : ∀ c, b.Entire c → X c = Y fun e => c e + off e) (d : Fin 3) (f : Pos) (hu : Used b d f) :
    calculateFluxes false (kernel P.ew P.em P.rt) (fun d f => P.S d fun e => f e + off e) b (fun n c => (X c).2 n) M.order M.scratch M.old d f
      = refFlux P Y d fun e => f e + off e := by
  rw [fluxes_fresh _ _ b _ _ ho _ _ d f hu]
  obtain ⟨h1, h2⟩ := states_global P b hg off (fun n c => (X c).2 n) (fun n c => (Y c).2 n) (fun n c hc => by simp only [hX c hc]) d f hu
  rw [h1, h2]; rfl

/-- the range of the loops of constrained transport. -/
def Edge (b : Blk) (f : Pos) : Prop := ∀ e, b.s e ≤ f e ∧ f e ≤ b.e e + b.ext e

theorem edge_used (b : Blk) (f : Pos) (hf : Edge b f) (a c : Fin 3) (ha : b.act a) (hc : b.act c) (hac : a ≠ c) :
    Used b a f ∧ Used b a fun e => f e - unit c e := by
  have hx : ∀ e, 0 ≤ b.ext e := by intro e; unfold Blk.ext; split_ifs <;> omega
  have ha1 : b.ext a = 1 := by simp [Blk.ext, ha]
  have hc1 : b.ext c = 1 := by simp [Blk.ext, hc]
  refine ⟨⟨ha, ?_, fun e he => ?_⟩, ha, ?_, fun e he => ?_⟩
  · have := hf a; omega
  · have := hf e; have := hx e; omega
  · have := hf a; simp only [unit, hac, if_false]; omega
  · have := hf e; have := hx e
    by_cases hec : e = c
    · subst hec; simp only [unit, if_true]; omega
    · simp only [unit, hec, if_false]; omega

/-- the electromotive force at an edge read by the update of an interior cell. -/
theorem emf_global (b : Blk) (off : Pos) (b0 : ℕ) (F Φ : Fin 3 → Pos → ℕ → K)
    (hF : ∀ d f, Used b d f → F d f = Φ d fun e => f e + off e) (a c : Fin 3) (ha : b.act a) (hc : b.act c) (hac : a ≠ c) (f : Pos)
    (hf : Edge b f) : emfAt F b0 a c f = emfAt Φ b0 a c fun e => f e + off e := by
  obtain ⟨u1, u2⟩ := edge_used b f hf a c ha hc hac
  obtain ⟨u3, u4⟩ := edge_used b f hf c a hc ha hac.symm
  unfold emfAt
  rw [hF _ _ u1, hF _ _ u2, hF _ _ u3, hF _ _ u4]
  have hp : ∀ c : Fin 3, (fun e => f e - unit c e + off e) = fun e => f e + off e - unit c e := by intro c; funext e; ring
  simp only [hp]

theorem edge_loop (b : Blk) (i j k : ℤ) (hf : Edge b ![i, j, k]) :
    (b.ndim = 2 → b.ct.loop2 k j i) ∧ (b.ndim = 3 → b.ct.loop3 k j i) := by
  have h0 := hf 0; have h1 := hf 1; have h2' := hf 2
  constructor <;> intro h2
  · simp [Blk.ext, Blk.act, h2] at h0 h1 h2'
    exact ⟨h2', h1, h0⟩
  · simp [Blk.ext, Blk.act, h2] at h0 h1 h2'
    exact ⟨h2', h1, h0⟩

omit [LinearOrder K] in
/-- `FluxCT` in terms of the electromotive forces, in the range of its loops. -/
theorem ctFlux_emf (b : Blk) (mhd : Option ℕ) (M : Mem K N) (F : Fin 3 → Pos → ℕ → K) (d : Fin 3) (hd : b.act d) (f : Pos) (m : ℕ)
    (hf : Edge b f) (hf' : ∀ c : Fin 3, b.act c → c ≠ d → Edge b fun e => f e + unit c e) :
    ctFlux b mhd M F d f m = refCT b.ndim mhd F d f m := by
  unfold ctFlux refCT
  cases mhd with
  | none => rfl
  | some b0 =>
    simp only
    by_cases hm : b0 ≤ m ∧ m < b0 + 3
    · rw [dif_pos hm]
      obtain ⟨c, rfl⟩ : ∃ c, m = b0 + c := ⟨m - b0, by omega⟩
      obtain ⟨i, j, k, rfl⟩ : ∃ i j k, f = ![i, j, k] := ⟨f 0, f 1, f 2, (pos_eta f).symm⟩
      have hc : c = 0 ∨ c = 1 ∨ c = 2 := by omega
      have hfin : ∀ h, (⟨b0 + c - b0, h⟩ : Fin 3) = ⟨c, by omega⟩ := by intro h; apply Fin.ext; simp
      have hdd : d = 0 ∨ d = 1 ∨ d = 2 := by omega
      have q := fun i j k => vec_up i j k
      have e0 := fun h hn => edge_loop b (i + 1) j k ((vec_up i j k).1 ▸ hf' 0 h hn)
      have e1 := fun h hn => edge_loop b i (j + 1) k ((vec_up i j k).2.1 ▸ hf' 1 h hn)
      have e2 := fun h hn => edge_loop b i j (k + 1) ((vec_up i j k).2.2.1 ▸ hf' 2 h hn)
      have L := edge_loop b i j k hf
      by_cases h2 : b.ndim = 2
      · have L := L.1 h2
        have e0 := fun hn => (e0 (by simp [Blk.act, h2]) hn).1 h2
        have e1 := fun hn => (e1 (by simp [Blk.act, h2]) hn).1 h2
        rw [if_pos h2]
        simp only [hfin]
        rcases hdd with rfl | rfl | rfl
        · have L1 := e1 (by simp)
          rcases hc with rfl | rfl | rfl
          · simp [FluxCT.fluxCT2D, L, h2]
          · simp [FluxCT.fluxCT2D, FluxCT.emf2D, L, L1, h2, toArr, emfAt, q, vec_mix]
          · simp [FluxCT.fluxCT2D, L, h2, toArr]
        · have L1 := e0 (by simp)
          rcases hc with rfl | rfl | rfl
          · simp [FluxCT.fluxCT2D, FluxCT.emf2D, L, L1, h2, toArr, emfAt, q, vec_mix]; ring
          · simp [FluxCT.fluxCT2D, L, h2]
          · simp [FluxCT.fluxCT2D, L, h2, toArr]
        · simp [Blk.act, h2] at hd
      · rw [if_neg h2]
        by_cases h3 : b.ndim = 3
        · have L := L.2 h3
          have e0 := fun hn => (e0 (by simp [Blk.act, h3]) hn).2 h3
          have e1 := fun hn => (e1 (by simp [Blk.act, h3]) hn).2 h3
          have e2 := fun hn => (e2 (by simp [Blk.act, h3]) hn).2 h3
          rw [if_pos h3]
          simp only [hfin]
          rcases hdd with rfl | rfl | rfl
          · have L1 := e1 (by simp)
            have L2 := e2 (by simp)
            rcases hc with rfl | rfl | rfl
            · simp [FluxCT.fluxCT3D, L, h3]
            · simp [FluxCT.fluxCT3D, FluxCT.emf3D, L, L1, h3, toArr, emfAt, q, vec_mix]
            · simp [FluxCT.fluxCT3D, FluxCT.emf3D, L, L2, h3, toArr, emfAt, q, vec_mix]; ring
          · have L1 := e0 (by simp)
            have L2 := e2 (by simp)
            rcases hc with rfl | rfl | rfl
            · simp [FluxCT.fluxCT3D, FluxCT.emf3D, L, L1, h3, toArr, emfAt, q, vec_mix]; ring
            · simp [FluxCT.fluxCT3D, L, h3]
            · simp [FluxCT.fluxCT3D, FluxCT.emf3D, L, L2, h3, toArr, emfAt, q, vec_mix]
          · have L1 := e0 (by simp)
            have L2 := e1 (by simp)
            rcases hc with rfl | rfl | rfl
            · simp [FluxCT.fluxCT3D, FluxCT.emf3D, L, L1, h3, toArr, emfAt, q, vec_mix]; ring_nf; simp
            · simp [FluxCT.fluxCT3D, FluxCT.emf3D, L, L2, h3, toArr, emfAt, q, vec_mix]; ring
            · simp [FluxCT.fluxCT3D, L, h3]
        · rw [if_neg h3, dif_neg (by omega)]
    · rw [dif_neg hm, dif_neg (by omega)]

/-- constrained transport reads the electromotive forces at the edges of the face, so fluxes that agree with the global ones at all used faces
give the global result at the faces of interior cells. -/
theorem ct_global (b : Blk) (off : Pos) (mhd : Option ℕ) (M : Mem K N) (F Φ : Fin 3 → Pos → ℕ → K)
    (hF : ∀ d f, Used b d f → F d f = Φ d fun e => f e + off e) (d : Fin 3) (ha : b.act d) (f : Pos) (hf : Edge b f)
    (hf' : ∀ c : Fin 3, b.act c → c ≠ d → Edge b fun e => f e + unit c e) (m : ℕ) :
    ctFlux b mhd M F d f m = refCT b.ndim mhd Φ d (fun e => f e + off e) m := by
  rw [ctFlux_emf b mhd M F d ha f m hf hf']
  have hx : ∀ e, 0 ≤ b.ext e := by intro e; unfold Blk.ext; split_ifs <;> omega
  have ha1 : b.ext d = 1 := by simp [Blk.ext, ha]
  have hu : Used b d f := ⟨ha, by have := hf d; omega, fun e _ => by have := hf e; have := hx e; omega⟩
  unfold refCT
  cases mhd with
  | none => simp only [hF d f hu]
  | some b0 =>
    simp only
    split_ifs with h1 h2
    · rfl
    · have hc : b.act ⟨m - b0, by omega⟩ := by simp only [Blk.act]; omega
      rw [emf_global b off b0 F Φ hF d _ ha hc h2 f hf, emf_global b off b0 F Φ hF d _ ha hc h2 _ (hf' _ hc (Ne.symm h2))]
      congr 4
      funext e; ring
    · rw [hF d f hu]

theorem interior_edges (b : Blk) (c : Pos) (h : b.Interior c) (d : Fin 3) (ha : b.act d) :
    (Edge b c ∧ ∀ c' : Fin 3, b.act c' → c' ≠ d → Edge b fun e => c e + unit c' e) ∧
    Edge b (fun e => c e + unit d e) ∧ ∀ c' : Fin 3, b.act c' → c' ≠ d → Edge b fun e => c e + unit d e + unit c' e := by
  have hx : ∀ e, 0 ≤ b.ext e := by intro e; unfold Blk.ext; split_ifs <;> omega
  have h1 : ∀ e, b.act e → b.ext e = 1 := by intro e he; simp [Blk.ext, he]
  have hda := h1 d ha
  refine ⟨⟨fun e => ?_, fun c' hc' hn e => ?_⟩, fun e => ?_, fun c' hc' hn e => ?_⟩
  all_goals have a1 := h e; have a2 := hx e
  · omega
  · have a3 := h1 c' hc'
    by_cases e1 : e = c'
    · subst e1; simp only [unit, if_true]; omega
    · simp only [unit, e1, if_false]; omega
  · by_cases e1 : e = d
    · subst e1; simp only [unit, if_true]; omega
    · simp only [unit, e1, if_false]; omega
  · have a3 := h1 c' hc'
    by_cases e1 : e = c'
    · subst e1; simp only [unit, if_true, hn, if_false]; omega
    · by_cases e2 : e = d
      · subst e2; simp only [unit, if_true, e1, if_false]; omega
      · simp only [unit, e1, e2, if_false]; omega

/-- the cells around a face of an interior cell are cells of the block. -/
theorem near_global (P : Phys K N) (b : Blk) (hg : 1 + radius P.rt ≤ b.g) (off : Pos) (X Y : Fields K N)
    (hX : ∀ c, b.Entire c → X c = Y fun e => c e + off e) (c : Pos) (h : b.Interior c) (d : Fin 3) (ha : b.act d) (t : ℤ) (ht : 0 ≤ t ∧ t ≤ 1) :
    near b.ndim P.rt d (fun e => c e + t * unit d e) X = near b.ndim P.rt d (fun e => c e + t * unit d e + off e) Y := by
  have hr : 0 ≤ radius P.rt := by cases P.rt <;> simp [radius]
  funext r n
  unfold near
  split_ifs with hs
  · rw [hX]
    · have : (fun e => c e + t * unit d e + r e + off e) = fun e => c e + t * unit d e + off e + r e := by funext e; ring
      simp only [this]
    · intro e
      have a := hs e
      have b1 := h e
      by_cases hed : e = d
      · subst hed
        have ha' : (e : ℕ) < b.ndim := ha
        rw [if_pos ha', if_pos rfl] at a
        rw [if_pos ha]
        simp only [unit, if_true]
        omega
      · simp only [unit, hed, if_false] at a ⊢
        by_cases hn : (e : ℕ) < b.ndim
        · rw [if_pos hn] at a
          rw [if_pos (show b.act e from hn)]
          omega
        · rw [if_neg hn] at a
          rw [if_neg (show ¬ b.act e from hn)]
          omega
  · rfl

/-- the flux divergence of an interior cell. -/
theorem rate_global (P : Phys K N) (b : Blk) (hg : 1 + radius P.rt ≤ b.g) (off : Pos) (M : Mem K N) (ho : Covers b M.order) (X Y : Fields K N)
    (hX : ∀ c, b.Entire c → X c = Y fun e => c e + off e) (m : ℕ) (c : Pos) (h : b.Interior c) :
    rate P.dx b (blockFlux P b off M X) m c = refDiv b.ndim P.dx (refAll b.ndim P Y) m fun e => c e + off e := by
  classical
  have key : ∀ d, b.act d → blockFlux P b off M X d c m = refAll b.ndim P Y d (fun e => c e + off e) m ∧
      blockFlux P b off M X d (fun e => c e + unit d e) m = refAll b.ndim P Y d (fun e => c e + off e + unit d e) m := by
    intro d ha
    obtain ⟨⟨h1, h2⟩, h3, h4⟩ := interior_edges b c h d ha
    have hp : (fun e => c e + unit d e + off e) = fun e => c e + off e + unit d e := by funext e; ring
    have n0 := near_global P b hg off X Y hX c h d ha 0 (by omega)
    have n1 := near_global P b hg off X Y hX c h d ha 1 (by omega)
    simp only [zero_mul, add_zero, one_mul, hp] at n0 n1
    unfold blockFlux refAll
    constructor
    · congr 1; funext m'
      rw [n0]
      congr 1
      exact ct_global b off P.mhd M _ (refFlux P Y) (fun d f hu => by rw [raw_flux P b hg off M ho X Y hX d f hu]) d ha c h1 h2 m'
    · rw [n1]
      simp only [← hp]
      congr 1; funext m'
      congr 1
      exact ct_global b off P.mhd M _ (refFlux P Y) (fun d f hu => by rw [raw_flux P b hg off M ho X Y hX d f hu]) d ha _ h3 h4 m'
  unfold rate refDiv
  rw [Fin.sum_univ_three]
  have t : ∀ d : Fin 3, (if b.act d then (blockFlux P b off M X d (fun e => c e + unit d e) m - blockFlux P b off M X d c m) / P.dx d else 0) =
      if d.val < b.ndim then (refAll b.ndim P Y d (fun e => c e + off e + unit d e) m - refAll b.ndim P Y d (fun e => c e + off e) m) / P.dx d else 0 := by
    intro d
    by_cases ha : b.act d
    · rw [if_pos ha, if_pos (show d.val < b.ndim from ha), (key d ha).1, (key d ha).2]
    · rw [if_neg ha, if_neg (show ¬ d.val < b.ndim from ha)]
  rw [t 0, t 1, t 2]

theorem interior_entire (b : Blk) (hg : 0 ≤ b.g) (c : Pos) (h : b.Interior c) : b.Entire c := by
  intro d
  have := h d
  split_ifs <;> omega

/-- **C130 (one stage)**: in every block, ghost cells included, the result is that of the scheme without blocks. -/
theorem stage_holds {B : Type} (G : Grid B) (nd : ℕ) (g : ℤ) (Dom : Pos → Prop) (hT : Tiles G nd g Dom) (dt : K) (base cur : Mesh K N B) (base' cur' : Glob K N)
    (P : Phys K N) (M : B → Mem K N) (hg : 1 + radius P.rt ≤ g) (ho : ∀ i, Covers (G.shape i) (M i).order)
    (hb : Holds G base base') (hc : Holds G cur cur') :
    Holds G (stage G dt base.1 cur (P, M)) (refStage nd G.wrap dt base'.1 cur' P) := by
  classical
  have hr : 0 ≤ radius P.rt := by cases P.rt <;> simp [radius]
  have upd : ∀ i c, (G.shape i).Interior c →
      blockUpdate P dt (G.shape i) (G.off i) (M i) (base.1 i) (cur.1 i) c = refUpdate nd P dt base'.1 cur'.1 fun e => c e + G.off i e := by
    intro i c h
    have he := interior_entire (G.shape i) (by rw [hT.ghosts]; omega) c h
    unfold blockUpdate refUpdate
    rw [if_pos h]
    congr 2; funext m
    rw [rate_global P (G.shape i) (by rw [hT.ghosts]; exact hg) (G.off i) (M i) (ho i) (cur.1 i) cur'.1 (hc.1 i) m c h, hb.1 i c he, hc.1 i c he, hT.ndim i]
  refine ⟨fun i c h => ?_, fun i d f hu => ?_⟩
  · unfold stage refStage refFields exchange
    simp only
    congr 2
    by_cases hi : (G.shape i).Interior c
    · rw [if_pos hi, if_pos (hT.fixed _ (hT.inside i c hi)), upd i c hi]
    · rw [if_neg hi]
      have hw := hT.wrapped fun e => c e + G.off i e
      have hown := hT.owned _ hw
      rw [upd _ _ hown]
      have hp : (fun e => G.wrap (fun e => c e + G.off i e) e - G.off (G.own (G.wrap fun e => c e + G.off i e)) e
          + G.off (G.own (G.wrap fun e => c e + G.off i e)) e) = G.wrap fun e => c e + G.off i e := by funext e; ring
      rw [hp]
      by_cases hwp : G.wrap (fun e => c e + G.off i e) = fun e => c e + G.off i e
      · rw [if_pos hwp, if_pos hwp, hwp]
      · rw [if_neg hwp, if_neg hwp]
  · unfold stage refStage refSpeed blockSpeed
    simp only
    rw [fluxes_fresh _ _ _ _ _ (ho i) _ _ d f hu]
    obtain ⟨h1, h2⟩ := states_global P (G.shape i) (by rw [hT.ghosts]; exact hg) (G.off i) (fun n c => (cur.1 i c).2 n) (fun n c => (cur'.1 c).2 n)
      (fun n c hcc => by simp only [hc.1 i c hcc]) d f hu
    rw [h1, h2]

/-- **C130 (one step)**. -/
theorem step_holds {B : Type} (G : Grid B) (nd : ℕ) (g : ℤ) (Dom : Pos → Prop) (hT : Tiles G nd g Dom) (dt : K) (X : Mesh K N B) (Y : Glob K N)
    (sts : List (Phys K N × (B → Mem K N))) (hg : ∀ s ∈ sts, 1 + radius s.1.rt ≤ g) (ho : ∀ s ∈ sts, ∀ i, Covers (G.shape i) (s.2 i).order)
    (h : Holds G X Y) : Holds G (step G dt sts X) (refStep nd G.wrap dt (sts.map Prod.fst) Y) := by
  unfold step refStep
  have : ∀ (cur : Mesh K N B) (cur' : Glob K N), Holds G cur cur' →
      Holds G (sts.foldl (stage G dt X.1) cur) ((sts.map Prod.fst).foldl (refStage nd G.wrap dt Y.1) cur') := by
    induction sts with
    | nil => intro cur cur' hc; exact hc
    | cons s l ih =>
      intro cur cur' hc
      rw [List.foldl_cons, List.map_cons, List.foldl_cons]
      refine ih (fun s hs => hg s (List.mem_cons_of_mem _ hs)) (fun s hs => ho s (List.mem_cons_of_mem _ hs)) _ _ ?_
      exact stage_holds G nd g Dom hT dt X cur Y cur' s.1 s.2 (hg s (by simp)) (ho s (by simp)) h hc
  exact this X Y h

/-- the set of time step estimates is that of the global array. -/
theorem estimates_global {B : Type} (G : Grid B) (nd : ℕ) (g : ℤ) (hg : 0 ≤ g) (Dom : Pos → Prop) (hT : Tiles G nd g Dom)
    (est : Pos → (Fin N → K) → (Fin 3 → K × K) → K) (X : Mesh K N B) (Y : Glob K N) (h : Holds G X Y) :
    estimates G est X = refEstimates nd Dom est Y := by
  have key : ∀ i c, (G.shape i).Interior c →
      est (fun e => c e + G.off i e) (X.1 i c).2 (fun d => if (G.shape i).act d then (X.2 i d c, X.2 i d fun e => c e + unit d e) else (0, 0)) =
      est (fun e => c e + G.off i e) (Y.1 fun e => c e + G.off i e).2
        fun d => if d.val < nd then (Y.2 d fun e => c e + G.off i e, Y.2 d fun e => c e + G.off i e + unit d e) else (0, 0) := by
    intro i c hc
    rw [h.1 i c (interior_entire (G.shape i) (by rw [hT.ghosts]; omega) c hc)]
    congr 1; funext d
    by_cases ha : (G.shape i).act d
    · obtain ⟨u1, u2⟩ := interior_used (G.shape i) c hc d ha
      rw [if_pos ha, h.2 i d _ u1, h.2 i d _ u2]
      rw [Blk.act, hT.ndim i] at ha
      rw [if_pos ha]
      have hp : (fun e => c e + unit d e + G.off i e) = fun e => c e + G.off i e + unit d e := by funext e; ring
      rw [hp]
    · rw [if_neg ha]
      rw [Blk.act, hT.ndim i] at ha
      rw [if_neg ha]
  ext t
  constructor
  · rintro ⟨i, c, hc, rfl⟩
    exact ⟨_, hT.inside i c hc, key i c hc⟩
  · rintro ⟨p, hp, rfl⟩
    have ho := hT.owned p hp
    refine ⟨G.own p, _, ho, ?_⟩
    rw [key _ _ ho]
    simp only [sub_add_cancel]

theorem map_fst_zipIdx {A C : Type} (l : List A) (f : ℕ → C) : ((l.zipIdx.map fun x => (x.1, f x.2)).map Prod.fst) = l := by
  rw [List.map_map]
  show List.map Prod.fst l.zipIdx = l
  exact List.zipIdx_map_fst 0 l

/-- **C130 (a run)**: after any number of steps every block holds the values of the run without blocks, and the time step is the same. -/
theorem run_holds {B : Type} (G : Grid B) (nd : ℕ) (g : ℤ) (Dom : Pos → Prop) (hT : Tiles G nd g Dom) (est : Pos → (Fin N → K) → (Fin 3 → K × K) → K)
    (ctrl : ℕ → K → Set K → K) (prog : ℕ → K → List (Phys K N)) (hg0 : 0 ≤ g) (hg : ∀ n dt, ∀ P ∈ prog n dt, 1 + radius P.rt ≤ g)
    (mem : ℕ → ℕ → B → Mem K N) (ho : Complete G mem) (X : Mesh K N B) (Y : Glob K N) (dt : K) (h : Holds G X Y) (n : ℕ) :
    Holds G (run G est ctrl prog mem n (X, dt)).1 (refRun nd Dom G.wrap est ctrl prog n (Y, dt)).1 ∧
    (run G est ctrl prog mem n (X, dt)).2 = (refRun nd Dom G.wrap est ctrl prog n (Y, dt)).2 := by
  induction n with
  | zero => exact ⟨h, rfl⟩
  | succ n ih =>
    obtain ⟨i1, i2⟩ := ih
    have hs := step_holds G nd g Dom hT (run G est ctrl prog mem n (X, dt)).2 _ _
      ((prog n (run G est ctrl prog mem n (X, dt)).2).zipIdx.map fun x => (x.1, mem n x.2))
      (by
        intro s hs
        obtain ⟨x, hx, rfl⟩ := List.mem_map.1 hs
        exact hg n _ x.1 (List.fst_mem_of_mem_zipIdx hx))
      (by
        intro s hs i
        obtain ⟨x, hx, rfl⟩ := List.mem_map.1 hs
        exact ho n x.2 i) i1
    rw [map_fst_zipIdx] at hs
    simp only [run, refRun]
    rw [i2] at hs ⊢
    refine ⟨hs, ?_⟩
    rw [estimates_global G nd g hg0 Dom hT est _ _ hs]

/-- **C130**: two meshes that tile the same domain in different ways, with different contents of scratch memory and different schedules, started
from the same initial data hold the same values at the same place after any number of steps, and have taken the same time steps. -/
theorem run_decomposition {B B' : Type} (G : Grid B) (G' : Grid B') (nd : ℕ) (g : ℤ) (Dom : Pos → Prop) (hT : Tiles G nd g Dom) (hT' : Tiles G' nd g Dom)
    (hw : G.wrap = G'.wrap) (est : Pos → (Fin N → K) → (Fin 3 → K × K) → K) (ctrl : ℕ → K → Set K → K) (prog : ℕ → K → List (Phys K N)) (hg0 : 0 ≤ g)
    (hg : ∀ n dt, ∀ P ∈ prog n dt, 1 + radius P.rt ≤ g) (mem : ℕ → ℕ → B → Mem K N) (ho : Complete G mem) (mem' : ℕ → ℕ → B' → Mem K N)
    (ho' : Complete G' mem') (X : Mesh K N B) (X' : Mesh K N B') (Y : Glob K N) (dt : K) (h : Holds G X Y) (h' : Holds G' X' Y) (n : ℕ) :
    (∀ i i' c c', (G.shape i).Interior c → (G'.shape i').Interior c' → (∀ e, c e + G.off i e = c' e + G'.off i' e) →
      (run G est ctrl prog mem n (X, dt)).1.1 i c = (run G' est ctrl prog mem' n (X', dt)).1.1 i' c') ∧
    (run G est ctrl prog mem n (X, dt)).2 = (run G' est ctrl prog mem' n (X', dt)).2 := by
  obtain ⟨a1, a2⟩ := run_holds G nd g Dom hT est ctrl prog hg0 hg mem ho X Y dt h n
  obtain ⟨b1, b2⟩ := run_holds G' nd g Dom hT' est ctrl prog hg0 hg mem' ho' X' Y dt h' n
  rw [← hw] at b1 b2
  refine ⟨fun i i' c c' hi hi' hc => ?_, a2.trans b2.symm⟩
  rw [a1.1 i c (interior_entire _ (by rw [hT.ghosts]; omega) c hi), b1.1 i' c' (interior_entire _ (by rw [hT'.ghosts]; omega) c' hi'), funext hc]

end Phoebus.Step
