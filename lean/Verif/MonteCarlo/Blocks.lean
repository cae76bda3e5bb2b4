import Verif.MonteCarlo.Exchange

/-!
# Monte Carlo transport on many blocks (C163)

Parthenon's `Send` and `Receive` are not in the repository.  Contract used: `Send` hands every packet of the swarm to the block that contains its position (possibly
after moving the position across a periodic boundary) and removes the packets outside the mesh; `Receive` waits for the messages of all other blocks and appends them.
-/
namespace Phoebus.MonteCarlo
open Finset Geom GeomUtils

section Blocks
variable {B C : Type} [DecidableEq B] [DecidableEq C]

/-- what one Monte Carlo step is given on all blocks: geometry and opacities, the time step, the emitted packets, the draws.
(Data type of the model of monte_carlo.cpp.) -/
structure MIn (B C : Type) where
  E : B → Env C
  dt : ℝ
  em : B → List (C × Packet)
  draw : B → ℕ → ℝ

/-- the fields and swarms of all blocks, the messages (receiver, sender) under way and, for the record, the packets that left the mesh from each block.
(Data type of the model of monte_carlo.cpp.) -/
structure MSt (B C : Type) where
  force : B → Force C
  swarm : B → List Packet
  mail : B → B → List Packet
  out : B → List Packet

/-- the packets of a swarm that `Send` hands to block `a` (`GetNeighborBlockIndex`, monte_carlo.cpp:532-533, and Parthenon's contract). -/
def toBlk (place : Packet → Option (B × Packet)) (a : B) (l : List Packet) : List Packet :=
  l.filterMap fun p => match place p with
    | some (b, q) => if b = a then some q else none
    | none => none

/-- the packets that leave the mesh (Parthenon's contract for outflow boundaries). -/
def escaped (place : Packet → Option (B × Packet)) (l : List Packet) : List Packet := l.filter fun p => (place p).isNone

/-- the `n`-th task of the list of block `b`, phoebus_driver.cpp:967-985: sources, transport, send, receive. -/
noncomputable def mcTask (place : Packet → Option (B × Packet)) (order : B → List B) (i : MIn B C) (b : B) (n : ℕ) (s : MSt B C) : MSt B C :=
  match n with
  | 0 => { s with force := Function.update s.force b ((i.em b).foldl (emitForce (i.E b).d3x i.dt (i.E b).mp (i.E b).u0) zeroForce)
                  swarm := Function.update s.swarm b (s.swarm b ++ (i.em b).map Prod.snd) }
  | 1 => let r := transport (i.E b) i.dt (s.force b) ((s.swarm b).zipIdx.map fun p => (p.1, i.draw b p.2))
         { s with force := Function.update s.force b r.1, swarm := Function.update s.swarm b r.2 }
  | 2 => { s with swarm := Function.update s.swarm b (toBlk place b (s.swarm b))
                  mail := fun a c => if c = b ∧ a ≠ b then toBlk place a (s.swarm b) else s.mail a c
                  out := Function.update s.out b (s.out b ++ escaped place (s.swarm b)) }
  | 3 => { s with swarm := Function.update s.swarm b (s.swarm b ++ (order b).flatMap (s.mail b))
                  mail := Function.update s.mail b fun _ => [] }
  | _ => s

/-- one turn of the scheduler: the next task of block `b`; the first component counts the tasks done.
(Helper of the model: Parthenon's task lists.) -/
noncomputable def mcTurn (place : Packet → Option (B × Packet)) (order : B → List B) (i : MIn B C) (x : (B → ℕ) × MSt B C) (b : B) : (B → ℕ) × MSt B C :=
  (Function.update x.1 b (x.1 b + 1), mcTask place order i b (x.1 b) x.2)

/-- the region `async_region0` run in the order `sched`, phoebus_driver.cpp:967-985. -/
noncomputable def mcRegion (place : Packet → Option (B × Packet)) (order : B → List B) (i : MIn B C) (sched : List B) (s : MSt B C) : MSt B C :=
  (sched.foldl (mcTurn place order i) (fun _ => 0, s)).2

/-- the whole step: the region, then `ApplyRadiationFourForce` on every block, phoebus_driver.cpp:967-1053. -/
noncomputable def mcStep (place : Packet → Option (B × Packet)) (order : B → List B) (x : (B → Fluid C) × MSt B C) (h : MIn B C × List B) : (B → Fluid C) × MSt B C :=
  let s := mcRegion place order h.1 h.2 x.2
  (fun b => applyForce h.1.dt (s.force b) (x.1 b), s)

/-- Specification: an order in which the tasks of all blocks may run: every block runs its four tasks, and receives only when all blocks have sent. -/
def Allowed (sched : List B) : Prop :=
  (∀ b, sched.count b = 4) ∧ ∀ l b r, sched = l ++ b :: r → l.count b = 3 → ∀ a, 3 ≤ l.count a

/-! ### The state after any number of tasks -/

/-- forces and packets of block `b` after its transport: those of one step of the single block. -/
noncomputable def moved (i : MIn B C) (s : MSt B C) (b : B) : Force C × List Packet :=
  transport (i.E b) i.dt ((i.em b).foldl (emitForce (i.E b).d3x i.dt (i.E b).mp (i.E b).u0) zeroForce) ((s.swarm b ++ (i.em b).map Prod.snd).zipIdx.map fun p => (p.1, i.draw b p.2))

/-- the state as a function of the numbers of tasks done. -/
noncomputable def closed (place : Packet → Option (B × Packet)) (order : B → List B) (i : MIn B C) (s : MSt B C) (ph : B → ℕ) : MSt B C where
  force b := if ph b = 0 then s.force b else if ph b = 1 then (i.em b).foldl (emitForce (i.E b).d3x i.dt (i.E b).mp (i.E b).u0) zeroForce else (moved i s b).1
  swarm b := if ph b = 0 then s.swarm b else if ph b = 1 then s.swarm b ++ (i.em b).map Prod.snd else if ph b = 2 then (moved i s b).2
    else if ph b = 3 then toBlk place b (moved i s b).2 else toBlk place b (moved i s b).2 ++ (order b).flatMap fun a => toBlk place b (moved i s a).2
  mail a b := if 3 ≤ ph b ∧ a ≠ b ∧ ph a < 4 then toBlk place a (moved i s b).2 else []
  out b := if 3 ≤ ph b then s.out b ++ escaped place (moved i s b).2 else s.out b

theorem closed_step (place : Packet → Option (B × Packet)) (order : B → List B) (ho : ∀ b, b ∉ order b) (i : MIn B C) (s : MSt B C) (ph : B → ℕ) (b : B) (hb : ph b < 4) (hr : ph b = 3 → ∀ a, 3 ≤ ph a)
    (h2 : ph b = 2 → ∀ a, ph a < 4) : mcTask place order i b (ph b) (closed place order i s ph) = closed place order i s (Function.update ph b (ph b + 1)) := by
  have h4 : ph b = 0 ∨ ph b = 1 ∨ ph b = 2 ∨ ph b = 3 := by omega
  rcases h4 with h | h | h | h
  · rw [h]
    simp only [mcTask, closed, MSt.mk.injEq]
    refine ⟨?_, ?_, ?_, ?_⟩
    · funext c; by_cases hc : c = b
      · subst hc; simp
      · simp [hc]
    · funext c; by_cases hc : c = b
      · subst hc; simp [h]
      · simp [hc]
    · funext c d; by_cases hc : c = b <;> by_cases hd : d = b
      · simp [hc, hd]
      · subst hc; simp [hd, h]
      · subst hd; simp [hc, h]
      · simp [hc, hd]
    · funext c; by_cases hc : c = b
      · subst hc; simp [h]
      · simp [hc]
  · rw [h]
    simp only [mcTask, closed, MSt.mk.injEq]
    refine ⟨?_, ?_, ?_, ?_⟩
    · funext c; by_cases hc : c = b
      · subst hc; simp [h, moved]
      · simp [hc]
    · funext c; by_cases hc : c = b
      · subst hc; simp [h, moved]
      · simp [hc]
    · funext c d; by_cases hc : c = b <;> by_cases hd : d = b
      · simp [hc, hd]
      · subst hc; simp [hd, h]
      · subst hd; simp [hc, h]
      · simp [hc, hd]
    · funext c; by_cases hc : c = b
      · subst hc; simp [h]
      · simp [hc]
  · rw [h]
    simp only [mcTask, closed, MSt.mk.injEq]
    refine ⟨?_, ?_, ?_, ?_⟩
    · funext c; by_cases hc : c = b
      · subst hc; simp [h]
      · simp [hc]
    · funext c; by_cases hc : c = b
      · subst hc; simp [h]
      · simp [hc]
    · funext c d; by_cases hc : c = b <;> by_cases hd : d = b
      · simp [hc, hd]
      · subst hc; simp [hd, h]
      · subst hd; simp [hc, h, h2 h c]
      · simp [hc, hd]
    · funext c; by_cases hc : c = b
      · subst hc; simp [h]
      · simp [hc]
  · rw [h]
    have hr' := hr h
    simp only [mcTask, closed, MSt.mk.injEq]
    refine ⟨?_, ?_, ?_, ?_⟩
    · funext c; by_cases hc : c = b
      · subst hc; simp [h]
      · simp [hc]
    · funext c; by_cases hc : c = b
      · subst hc
        simp only [Function.update_self, h]
        norm_num
        refine List.flatMap_congr fun a ha => ?_
        rw [if_pos ⟨hr' a, fun e => ho c (e ▸ ha)⟩]
      · simp [hc]
    · funext c d; by_cases hc : c = b <;> by_cases hd : d = b
      · simp [hc, hd]
      · subst hc; simp [hd]
      · subst hd; simp [hc, h]
      · simp [hc, hd]
    · funext c; by_cases hc : c = b
      · subst hc; simp [h]
      · simp [hc]

/-- after any part of an allowed order the state depends only on how many tasks each block has done. -/
theorem region_closed (place : Packet → Option (B × Packet)) (order : B → List B) (ho : ∀ b, b ∉ order b) (i : MIn B C) (s : MSt B C) (hm : ∀ a b, s.mail a b = []) {sched : List B} (h : Allowed sched) :
    ∀ l r, sched = l ++ r → l.foldl (mcTurn place order i) (fun _ => 0, s) = (fun b => l.count b, closed place order i s fun b => l.count b) := by
  intro l
  induction l using List.reverseRecOn with
  | nil =>
    intro r _
    refine Prod.ext (by funext; simp) ?_
    show s = _
    cases s with
    | mk f w m o =>
      simp only [closed, MSt.mk.injEq]
      refine ⟨by simp, by simp, ?_, by simp⟩
      funext a b; simpa using hm a b
  | append_singleton l b ih =>
    intro r e
    have e' : sched = l ++ b :: r := by rw [e]; simp
    have tot : ∀ a, l.count a + (b :: r).count a = 4 := fun a => by rw [← List.count_append, ← e']; exact h.1 a
    have hb : l.count b < 4 := by have := tot b; rw [List.count_cons_self] at this; omega
    have hr := h.2 l b r e'
    have h2 : l.count b = 2 → ∀ a, l.count a < 4 := fun hb2 a => by
      by_contra hc
      have ha : l.count a = 4 := by have := tot a; omega
      obtain ⟨l1, l2, e1, e2⟩ : ∃ l1 l2, l = l1 ++ a :: l2 ∧ l1.count a = 3 := by
        clear ih e e' tot hb hr hb2 hc
        have key : ∀ (l : List B) n, l.count a = n + 1 → ∃ l1 l2, l = l1 ++ a :: l2 ∧ l1.count a = n := by
          intro l
          induction l using List.reverseRecOn with
          | nil => intro n hn; simp at hn
          | append_singleton l x ih =>
            intro n hn
            by_cases hx : x = a
            · subst hx
              refine ⟨l, [], rfl, ?_⟩
              simpa using hn
            · obtain ⟨l1, l2, a1, a2⟩ := ih n (by simpa [List.count_append, hx] using hn)
              exact ⟨l1, l2 ++ [x], by rw [a1]; simp, a2⟩
        exact key l 3 ha
      have := h.2 l1 a (l2 ++ b :: r) (by rw [e', e1]; simp) e2 b
      have c : l1.count b ≤ l.count b := by rw [e1, List.count_append]; omega
      omega
    rw [List.foldl_append, ih (b :: r) e', List.foldl_cons, List.foldl_nil]
    have cnt : Function.update (fun a => l.count a) b (l.count b + 1) = fun a => (l ++ [b]).count a := by
      funext a
      by_cases hab : a = b
      · subst hab; simp
      · simp [hab, List.count_append, Ne.symm hab]
    unfold mcTurn
    simp only
    rw [closed_step place order ho i s (fun a => l.count a) b hb hr h2, cnt]

/-- the state after the region. -/
theorem region_final (place : Packet → Option (B × Packet)) (order : B → List B) (ho : ∀ b, b ∉ order b) (i : MIn B C) (s : MSt B C) (hm : ∀ a b, s.mail a b = []) {sched : List B} (h : Allowed sched) :
    mcRegion place order i sched s = closed place order i s fun _ => 4 := by
  unfold mcRegion
  rw [region_closed place order ho i s hm h sched [] (by simp)]
  exact congrArg (closed place order i s) (funext h.1)

/-- **C163** The order in which the blocks run their tasks does not matter. -/
theorem region_any_order (place : Packet → Option (B × Packet)) (order : B → List B) (ho : ∀ b, b ∉ order b) (i : MIn B C) (s : MSt B C) (hm : ∀ a b, s.mail a b = []) {sched sched' : List B} (h : Allowed sched) (h' : Allowed sched') :
    mcRegion place order i sched s = mcRegion place order i sched' s := by rw [region_final place order ho i s hm h, region_final place order ho i s hm h']

/-- **C163** Every packet is transported exactly once: afterwards the swarm of a block consists of the packets placed on it, each of which was moved by one step of the block (old or emitted there) where it began. -/
theorem region_once [Fintype C] (place : Packet → Option (B × Packet)) (order : B → List B) (ho : ∀ b, b ∉ order b) (i : MIn B C) (s : MSt B C) (hm : ∀ a b, s.mail a b = []) {sched : List B} (h : Allowed sched) (U : B → Fluid C) (b : B) :
    let st := fun a => step (i.E a) i.dt (i.em a) (i.draw a) (U a, s.swarm a)
    (mcRegion place order i sched s).swarm b = toBlk place b (st b).2 ++ (order b).flatMap (fun a => toBlk place b (st a).2) ∧
    applyForce i.dt ((mcRegion place order i sched s).force b) (U b) = (st b).1 ∧
    (mcRegion place order i sched s).out b = s.out b ++ escaped place (st b).2 ∧ ∀ a, (mcRegion place order i sched s).mail a b = [] := by
  rw [region_final place order ho i s hm h]
  exact ⟨rfl, rfl, rfl, fun a => by simp [closed]⟩

/-! ### Conservation -/

/-- whatever `place` leaves unchanged is shared out among the blocks and the packets that left. -/
theorem route_sum [Fintype B] (place : Packet → Option (B × Packet)) (f : Packet → ℝ) (hf : ∀ p b q, place p = some (b, q) → f q = f p) (l : List Packet) :
    ∑ b, ((toBlk place b l).map f).sum + ((escaped place l).map f).sum = (l.map f).sum := by
  induction l with
  | nil => simp [toBlk, escaped]
  | cons p l ih =>
    rw [List.map_cons, List.sum_cons, ← ih]
    rcases hp : place p with _ | ⟨c, q⟩
    · have e1 : ∀ b, toBlk place b (p :: l) = toBlk place b l := fun b => by simp [toBlk, hp]
      have e2 : escaped place (p :: l) = p :: escaped place l := by simp [escaped, hp]
      simp only [e1, e2, List.map_cons, List.sum_cons]; ring
    · have e1 : ∀ b, ((toBlk place b (p :: l)).map f).sum = (if b = c then f p else 0) + ((toBlk place b l).map f).sum := fun b => by
        by_cases hb : b = c
        · subst hb; simp [toBlk, hp, hf p _ q hp]
        · simp [toBlk, hp, hb, Ne.symm hb]
      have e2 : escaped place (p :: l) = escaped place l := by simp [escaped, hp]
      simp only [e1, e2, sum_add_distrib]
      simp; ring

theorem sum_flat {A : Type} (f : Packet → ℝ) (g : A → List Packet) (l : List A) : ((l.flatMap g).map f).sum = (l.map fun a => ((g a).map f).sum).sum := by
  induction l with
  | nil => simp
  | cons a l ih => simp [ih]

/-- the packets after the region carry what they carried after the steps of the single blocks. -/
theorem region_sum [Fintype B] [Fintype C] (place : Packet → Option (B × Packet)) (order : B → List B) (ho : ∀ b, (order b).Nodup ∧ ∀ a, a ∈ order b ↔ a ≠ b) (i : MIn B C) (s : MSt B C) (hm : ∀ a b, s.mail a b = []) {sched : List B} (h : Allowed sched)
    (f : Packet → ℝ) (hf : ∀ p b q, place p = some (b, q) → f q = f p) (U : B → Fluid C) :
    ∑ b, (((mcRegion place order i sched s).swarm b).map f).sum + ∑ b, (((mcRegion place order i sched s).out b).map f).sum =
      ∑ b, ((step (i.E b) i.dt (i.em b) (i.draw b) (U b, s.swarm b)).2.map f).sum + ∑ b, ((s.out b).map f).sum := by
  have hf' := fun b => region_once place order (fun b hb => ((ho b).2 b).mp hb rfl) i s hm h U b
  simp only at hf'
  set st := fun a => (step (i.E a) i.dt (i.em a) (i.draw a) (U a, s.swarm a)).2 with hst
  have e1 : ∀ b, (((mcRegion place order i sched s).swarm b).map f).sum = ∑ a, ((toBlk place b (st a)).map f).sum := fun b => by
    rw [(hf' b).1, List.map_append, List.sum_append, sum_flat]
    have : ((order b).map fun a => ((toBlk place b (st a)).map f).sum).sum = ∑ a ∈ univ.erase b, ((toBlk place b (st a)).map f).sum := by
      rw [← List.sum_toFinset _ (ho b).1]
      refine sum_congr ?_ fun _ _ => rfl
      ext a; simp [(ho b).2 a]
    rw [← add_sum_erase _ _ (mem_univ b), ← this]
  have e2 : ∀ b, (((mcRegion place order i sched s).out b).map f).sum = ((s.out b).map f).sum + ((escaped place (st b)).map f).sum := fun b => by
    rw [(hf' b).2.2.1, List.map_append, List.sum_append]
  simp only [e1, e2, sum_add_distrib]
  rw [sum_comm]
  have := fun a => route_sum place f hf (st a)
  have e3 : ∑ a, ((st a).map f).sum = ∑ a, (∑ b, ((toBlk place b (st a)).map f).sum + ((escaped place (st a)).map f).sum) := sum_congr rfl fun a _ => (this a).symm
  rw [e3, sum_add_distrib]; ring

/-- Specification: four-momentum of the gas of all blocks, the packets and the packets that left the mesh. -/
def totalP [Fintype B] [Fintype C] (d3x : B → ℝ) (x : (B → Fluid C) × MSt B C) (mu : Fin 4) : ℝ :=
  ∑ b, fluidP (d3x b) (x.1 b) mu + (∑ b, packetP (x.2.swarm b) mu + ∑ b, packetP (x.2.out b) mu)

/-- Specification: lepton number (times the nucleon mass) of the same. -/
def totalL [Fintype B] [Fintype C] (d3x : B → ℝ) (mp : ℝ) (x : (B → Fluid C) × MSt B C) : ℝ :=
  ∑ b, d3x b * ∑ c, (x.1 b).ye c + (∑ b, ((x.2.swarm b).map fun p => leptonSign p.s * p.w * mp).sum + ∑ b, ((x.2.out b).map fun p => leptonSign p.s * p.w * mp).sum)

variable [Fintype B] [Fintype C]

/-- **C163** Through any history of Monte Carlo steps on any number of blocks, with any allowed orders, emission, draws, opacities and time steps, the four-momentum of gas, packets and escaped packets along every symmetry of the metric is constant. -/
theorem mesh_momentum (place : Packet → Option (B × Packet)) (hpl : ∀ p b q, place p = some (b, q) → q.w = p.w ∧ q.ray.k = p.ray.k) (order : B → List B) (ho : ∀ b, (order b).Nodup ∧ ∀ a, a ∈ order b ↔ a ≠ b) (d3x : B → ℝ) {mu : Fin 4}
    (h : List (MIn B C × List B)) (hh : ∀ i ∈ h, Allowed i.2 ∧ ∀ b, (i.1.E b).d3x = d3x b ∧ d3x b * i.1.dt ≠ 0 ∧ Symmetry (i.1.E b).gcon mu) (x : (B → Fluid C) × MSt B C) (hm : ∀ a b, x.2.mail a b = []) :
    totalP d3x (h.foldl (mcStep place order) x) mu = totalP d3x x mu := by
  induction h generalizing x with
  | nil => rfl
  | cons i h ih =>
    obtain ⟨h1, h2⟩ := hh i List.mem_cons_self
    have ro := fun b => region_once place order (fun b hb => ((ho b).2 b).mp hb rfl) i.1 x.2 hm h1 x.1 b
    simp only at ro
    rw [List.foldl_cons, ih (fun j hj => hh j (List.mem_cons_of_mem _ hj)) _ (fun a b => (ro b).2.2.2 a)]
    have rs := region_sum place order ho i.1 x.2 hm h1 (fun p => p.w * p.ray.k mu) (fun p b q hq => by rw [(hpl p b q hq).1, (hpl p b q hq).2]) x.1
    unfold totalP packetP
    have e : (mcStep place order x i).2 = mcRegion place order i.1 i.2 x.2 := rfl
    have e1 : ∀ b, (mcStep place order x i).1 b = (step (i.1.E b) i.1.dt (i.1.em b) (i.1.draw b) (x.1 b, x.2.swarm b)).1 := fun b => (ro b).2.1
    rw [e, rs]
    have key : ∀ b, fluidP (d3x b) ((mcStep place order x i).1 b) mu + packetP (step (i.1.E b) i.1.dt (i.1.em b) (i.1.draw b) (x.1 b, x.2.swarm b)).2 mu = fluidP (d3x b) (x.1 b) mu + packetP (x.2.swarm b) mu := fun b => by
      rw [e1 b, ← (h2 b).1]
      exact step_momentum (i.1.E b) (by rw [(h2 b).1]; exact (h2 b).2.1) (h2 b).2.2 _ _ _
    have := sum_congr (s₁ := univ) rfl fun b _ => key b
    simp only [sum_add_distrib, packetP] at this
    linarith

/-- **C163** and so is the lepton number, if `Ucon[0]` is one in every cell (otherwise C69). -/
theorem mesh_leptons_partial (place : Packet → Option (B × Packet)) (hpl : ∀ p b q, place p = some (b, q) → q.w = p.w ∧ q.s = p.s) (order : B → List B) (ho : ∀ b, (order b).Nodup ∧ ∀ a, a ∈ order b ↔ a ≠ b) (d3x : B → ℝ) (mp : ℝ)
    (h : List (MIn B C × List B)) (hh : ∀ i ∈ h, Allowed i.2 ∧ ∀ b, (i.1.E b).d3x = d3x b ∧ (i.1.E b).mp = mp ∧ d3x b * i.1.dt ≠ 0 ∧ ∀ c, (i.1.E b).u0 c = 1) (x : (B → Fluid C) × MSt B C) (hm : ∀ a b, x.2.mail a b = []) :
    totalL d3x mp (h.foldl (mcStep place order) x) = totalL d3x mp x := by
  induction h generalizing x with
  | nil => rfl
  | cons i h ih =>
    obtain ⟨h1, h2⟩ := hh i List.mem_cons_self
    have ro := fun b => region_once place order (fun b hb => ((ho b).2 b).mp hb rfl) i.1 x.2 hm h1 x.1 b
    simp only at ro
    rw [List.foldl_cons, ih (fun j hj => hh j (List.mem_cons_of_mem _ hj)) _ (fun a b => (ro b).2.2.2 a)]
    have rs := region_sum place order ho i.1 x.2 hm h1 (fun p => leptonSign p.s * p.w * mp) (fun p b q hq => by rw [(hpl p b q hq).1, (hpl p b q hq).2]) x.1
    unfold totalL
    have e : (mcStep place order x i).2 = mcRegion place order i.1 i.2 x.2 := rfl
    have e1 : ∀ b, (mcStep place order x i).1 b = (step (i.1.E b) i.1.dt (i.1.em b) (i.1.draw b) (x.1 b, x.2.swarm b)).1 := fun b => (ro b).2.1
    rw [e, rs]
    have key : ∀ b, d3x b * ∑ c, ((mcStep place order x i).1 b).ye c + ((step (i.1.E b) i.1.dt (i.1.em b) (i.1.draw b) (x.1 b, x.2.swarm b)).2.map fun p => leptonSign p.s * p.w * mp).sum
        = d3x b * ∑ c, (x.1 b).ye c + ((x.2.swarm b).map fun p => leptonSign p.s * p.w * mp).sum := fun b => by
      have := step_leptons (i.1.E b) (dt := i.1.dt) (by rw [(h2 b).1]; exact (h2 b).2.2.1) (h2 b).2.2.2 (i.1.em b) (i.1.draw b) (x.1 b, x.2.swarm b)
      simp only [leptons, (h2 b).1, (h2 b).2.1] at this
      rw [e1 b]; exact this
    have := sum_congr (s₁ := univ) rfl fun b _ => key b
    simp only [sum_add_distrib] at this
    linarith

omit [Fintype B] [Fintype C] in
/-- **C163** Afterwards every packet lies on the block that holds it, if placing a placed packet again would not move it. -/
theorem packets_home (place : Packet → Option (B × Packet)) (hpl : ∀ p b q, place p = some (b, q) → place q = some (b, q)) (order : B → List B) (ho : ∀ b, b ∉ order b) (i : MIn B C) (s : MSt B C) (hm : ∀ a b, s.mail a b = []) {sched : List B} (h : Allowed sched)
    (b : B) (q : Packet) (hq : q ∈ (mcRegion place order i sched s).swarm b) : place q = some (b, q) := by
  rw [region_final place order ho i s hm h] at hq
  have hq' : q ∈ toBlk place b (moved i s b).2 ++ (order b).flatMap fun a => toBlk place b (moved i s a).2 := hq
  have key : ∀ l, q ∈ toBlk place b l → place q = some (b, q) := fun l hl => by
    simp only [toBlk, List.mem_filterMap] at hl
    obtain ⟨p, _, hp⟩ := hl
    rcases e : place p with _ | ⟨c, r⟩
    · rw [e] at hp; simp at hp
    · rw [e] at hp
      simp only at hp
      split_ifs at hp with hc
      · simp only [Option.some.injEq] at hp
        subst hc; subst hp; exact hpl p c r e
  rcases List.mem_append.mp hq' with h1 | h1
  · exact key _ h1
  · obtain ⟨a, _, ha⟩ := List.mem_flatMap.mp h1
    exact key _ ha

end Blocks

/-! ### Example -/

/-- two blocks, left and right of the origin, and the space beyond `x = 4` outside the mesh. -/
noncomputable def exPlace (p : Packet) : Option (Bool × Packet) := if 4 < p.ray.X 1 then none else some (decide (0 < p.ray.X 1), p)

/-- **C163 (concrete)** a packet emitted left of the origin ends on the right block after one step, in an order where the left block sends before the right one has begun; the total momentum is still zero. -/
theorem ex_blocks : let E : Env Unit := ⟨true, fun _ => Geodesics.etaInv, fun _ => (), fun _ _ _ => 0, fun _ => 1, 1, 1, 1, False⟩
    let s0 : MSt Bool Unit := ⟨fun _ => zeroForce, fun _ => [], fun _ _ => [], fun _ => []⟩
    let sched := [false, false, false, true, true, true, true, false]
    let h : List (MIn Bool Unit × List Bool) := [(⟨fun _ => E, 2, fun b => if b then [] else [((), ⟨0, ⟨![0, -1, 0, 0], ![-1, 1, 0, 0]⟩, 3⟩)], fun _ _ => 1⟩, sched)]
    Allowed sched ∧ (∀ b, ([!b] : List Bool).Nodup ∧ ∀ a, a ∈ [!b] ↔ a ≠ b) ∧
    (h.foldl (mcStep exPlace fun b => [!b]) (fun _ => ⟨fun _ => 0, fun _ _ => 0, fun _ => 0⟩, s0)).2.swarm true = [⟨0, ⟨![2, 1, 0, 0], ![-1, 1, 0, 0]⟩, 3⟩] ∧
    totalP (fun _ => 1) (h.foldl (mcStep exPlace fun b => [!b]) (fun _ => ⟨fun _ => 0, fun _ _ => 0, fun _ => 0⟩, s0)) 1 = 0 := by
  intro E s0 sched h
  have hA : Allowed sched := by
    refine ⟨by decide, fun l b r e hc a => ?_⟩
    have hl : l = sched.take l.length := by rw [e]; simp
    have hb : sched[l.length]? = some b := by rw [e]; simp
    have hn : l.length < 8 := by
      have : sched.length = l.length + (r.length + 1) := by rw [e]; simp
      have h8 : sched.length = 8 := rfl
      omega
    rw [hl] at hc ⊢
    generalize l.length = n at *
    clear hl e
    interval_cases n <;> revert a b <;> decide
  have ho : ∀ b, ([!b] : List Bool).Nodup ∧ ∀ a, a ∈ [!b] ↔ a ≠ b := by decide
  have hpush : Geodesics.push true (fun _ => Geodesics.etaInv) 2 ⟨![0, -1, 0, 0], ![-1, 1, 0, 0]⟩ = (⟨![2, 1, 0, 0], ![-1, 1, 0, 0]⟩ : Geodesics.Ray ℝ) := by
    simp only [Geodesics.push, Geodesics.Ray.mk.injEq]
    constructor
    · funext m; fin_cases m <;> simp [Geodesics.xSource, Geodesics.kSource, raise, GeomUtils.raise, Geodesics.etaInv, Fin.sum_univ_four] <;> norm_num
    · funext m; fin_cases m <;> simp [Geodesics.kSource]
  refine ⟨hA, ho, ?_, ?_⟩
  · have := (region_once exPlace (fun b => [!b]) (fun b => by simp) ⟨fun _ => E, 2, fun b => if b then [] else [((), ⟨0, ⟨![0, -1, 0, 0], ![-1, 1, 0, 0]⟩, 3⟩)], fun _ _ => 1⟩ s0 (fun _ _ => rfl) hA (fun _ => ⟨fun _ => 0, fun _ _ => 0, fun _ => 0⟩) true).1
    refine Eq.trans this ?_
    have na : ∀ a d u, ¬ absorbs False a d u := fun a d u h => h.1
    simp [s0, E, step, transport, transportOne, toBlk, na, hpush, exPlace]
  · rw [mesh_momentum exPlace (fun p b q hq => ?_) (fun b => [!b]) ho (fun _ => 1) h ?_ _ (fun _ _ => rfl)]
    · simp [totalP, fluidP, packetP, s0]
    · intro i hi
      simp only [h, List.mem_singleton] at hi
      subst hi
      exact ⟨hA, fun b => ⟨rfl, by norm_num, fun X x => rfl⟩⟩
    · unfold exPlace at hq
      split_ifs at hq
      simp only [Option.some.injEq, Prod.mk.injEq] at hq
      rw [← hq.2]; exact ⟨rfl, rfl⟩

end Phoebus.MonteCarlo
