import Verif.Algo.LanczosStep
import Verif.Mps.VmpsGauge
import Verif.Disk.Boundary
import Verif.Mpi.OrdersSpec
import Verif.Mpi.DmrgEng
/-
The numbers of the parallel two-site variational optimisation: an instance of `Eng` (Verif/Mpi/Orders.lean) with dense tensors over `ℝ` or `ℂ` in exact arithmetic, in the
notation of Verif/Mps/Vmps.lean. The memory of the master is that of the disk programs (Verif/Disk/Core.lean), or the error that stopped them.
-/
namespace Verif.Mpi
open Finset Verif.Mps Verif.Algo Verif.Disk

section
variable {σ 𝕜 : Type}

/-- The tensors that are sent and added: two-site states, environments, tensors of the state and of the Hamiltonian; and the result of the Lanczos solver with its energy (`LanczosRes`,
lanczos_vmps_solver.h), which stays with the master. -/
inductive Shape (σ 𝕜 : Type) where
  | two (B : Blk2 σ 𝕜)
  | env (e : Env3 𝕜)
  | site (t : Ten σ 𝕜)
  | op (w : Ten (σ × σ) 𝕜)
  | gs (B : Blk2 σ 𝕜) (e : Option ℝ)

/-- Addition of tensors with the same legs; only states and environments are ever added. -/
def Shape.add [Add 𝕜] : Shape σ 𝕜 → Shape σ 𝕜 → Option (Shape σ 𝕜)
  | .two B, .two C => if B.l = C.l ∧ B.r = C.r then some (.two ⟨B.l, B.r, fun x y a b => B.v x y a b + C.v x y a b⟩) else none
  | .env e, .env f => if e.d0 = f.d0 ∧ e.d1 = f.d1 ∧ e.d2 = f.d2 then some (.env ⟨e.d0, e.d1, e.d2, fun a c b => e.v a c b + f.v a c b⟩) else none
  | _, _ => none

/-- A tensor: default-constructed, undefined (legs did not fit), or with a value. `CollectiveLinearCombine` into a default tensor adds up tensors with the same legs. -/
inductive TX (σ 𝕜 : Type) where
  | default
  | bad
  | val (x : Shape σ 𝕜)

/-- The sum of two tensors. -/
def TX.add [Add 𝕜] : TX σ 𝕜 → TX σ 𝕜 → TX σ 𝕜
  | .default, x => x
  | .bad, _ => .bad
  | .val x, .default => .val x
  | .val _, .bad => .bad
  | .val x, .val y => match x.add y with
    | some z => .val z
    | none => .bad

theorem Shape.add_comm' [AddCommMonoid 𝕜] (x y : Shape σ 𝕜) : x.add y = y.add x := by
  cases x <;> cases y <;> try rfl
  · rename_i B C
    obtain ⟨l, r, v⟩ := B
    obtain ⟨l', r', v'⟩ := C
    by_cases h : l = l' ∧ r = r'
    · obtain ⟨rfl, rfl⟩ := h
      simp only [Shape.add, add_comm]
    · have h2 : ¬(l' = l ∧ r' = r) := fun h' => h ⟨h'.1.symm, h'.2.symm⟩
      simp only [Shape.add, if_neg h, if_neg h2]
  · rename_i B C
    obtain ⟨d, e, f, v⟩ := B
    obtain ⟨d', e', f', v'⟩ := C
    by_cases h : d = d' ∧ e = e' ∧ f = f'
    · obtain ⟨rfl, rfl, rfl⟩ := h
      simp only [Shape.add, add_comm]
    · have h2 : ¬(d' = d ∧ e' = e ∧ f' = f) := fun h' => h ⟨h'.1.symm, h'.2.1.symm, h'.2.2.symm⟩
      simp only [Shape.add, if_neg h, if_neg h2]

theorem Shape.add_assoc' [AddCommMonoid 𝕜] (x y z : Shape σ 𝕜) : ((x.add y).bind fun u => u.add z) = (y.add z).bind fun u => x.add u := by
  cases y with
  | two B =>
    cases x with
    | two A =>
      cases z with
      | two C =>
        obtain ⟨l, r, v⟩ := A
        obtain ⟨l', r', v'⟩ := B
        obtain ⟨l'', r'', v''⟩ := C
        by_cases h : l = l' ∧ r = r'
        · obtain ⟨rfl, rfl⟩ := h
          by_cases h : l = l'' ∧ r = r''
          · obtain ⟨rfl, rfl⟩ := h
            simp [Shape.add, add_assoc]
          · simp [Shape.add, if_neg h]
        · by_cases h2 : l' = l'' ∧ r' = r''
          · obtain ⟨rfl, rfl⟩ := h2
            simp [Shape.add, if_neg h]
          · simp [Shape.add, if_neg h, if_neg h2]
      | _ =>
        simp only [Shape.add]
        split <;> rfl
    | _ =>
      cases z <;> simp only [Shape.add] <;> try rfl
      split <;> rfl
  | env B =>
    cases x with
    | env A =>
      cases z with
      | env C =>
        obtain ⟨l, r, d, v⟩ := A
        obtain ⟨l', r', d', v'⟩ := B
        obtain ⟨l'', r'', d'', v''⟩ := C
        by_cases h : l = l' ∧ r = r' ∧ d = d'
        · obtain ⟨rfl, rfl, rfl⟩ := h
          by_cases h : l = l'' ∧ r = r'' ∧ d = d''
          · obtain ⟨rfl, rfl, rfl⟩ := h
            simp [Shape.add, add_assoc]
          · simp [Shape.add, if_neg h]
        · by_cases h2 : l' = l'' ∧ r' = r'' ∧ d' = d''
          · obtain ⟨rfl, rfl, rfl⟩ := h2
            simp [Shape.add, if_neg h]
          · simp [Shape.add, if_neg h, if_neg h2]
      | _ =>
        simp only [Shape.add]
        split <;> rfl
    | _ =>
      cases z <;> simp only [Shape.add] <;> try rfl
      split <;> rfl
  | _ =>
    cases x <;> cases z <;> rfl

theorem TX.val_add [Add 𝕜] (x y : Shape σ 𝕜) : TX.add (.val x) (.val y) = ((x.add y).map TX.val).getD .bad := by
  simp only [TX.add]
  cases x.add y <;> rfl

instance [Add 𝕜] : Add (TX σ 𝕜) := ⟨TX.add⟩
instance : Zero (TX σ 𝕜) := ⟨.default⟩

instance [AddCommMonoid 𝕜] : AddCommMonoid (TX σ 𝕜) where
  zero_add _ := rfl
  add_zero x := by cases x <;> rfl
  add_comm x y := by
    cases x <;> cases y <;> try rfl
    show TX.add _ _ = TX.add _ _
    rw [TX.val_add, TX.val_add, Shape.add_comm']
  add_assoc x y z := by
    show TX.add (TX.add x y) z = TX.add x (TX.add y z)
    cases x <;> cases y <;> cases z <;> try rfl
    · rename_i x y
      show TX.add (TX.add (.val x) (.val y)) .default = TX.add (.val x) (.val y)
      rw [TX.val_add]
      cases x.add y <;> rfl
    · rename_i x y
      show TX.add (TX.add (.val x) (.val y)) .bad = TX.bad
      rw [TX.val_add]
      cases x.add y <;> rfl
    · rename_i x y z
      rw [TX.val_add, TX.val_add]
      have h := Shape.add_assoc' x y z
      cases h1 : x.add y with
      | none =>
        rw [h1] at h
        cases h2 : y.add z with
        | none => rfl
        | some v =>
          rw [h2] at h
          show TX.bad = TX.add (.val x) (.val v)
          rw [TX.val_add, show x.add v = none from h.symm]
          rfl
      | some u =>
        rw [h1] at h
        cases h2 : y.add z with
        | none =>
          rw [h2] at h
          show TX.add (.val u) (.val z) = TX.bad
          rw [TX.val_add, show u.add z = none from h]
          rfl
        | some v =>
          rw [h2] at h
          show TX.add (.val u) (.val z) = TX.add (.val x) (.val v)
          rw [TX.val_add, TX.val_add, show u.add z = x.add v from h]
  nsmul := nsmulRec

theorem TX.add_two [AddCommMonoid 𝕜] (l r : Nat) (f g : σ → σ → Nat → Nat → 𝕜) :
    (TX.val (.two ⟨l, r, f⟩) + TX.val (.two ⟨l, r, g⟩) : TX σ 𝕜) = .val (.two ⟨l, r, fun x y a b => f x y a b + g x y a b⟩) := by
  show TX.add _ _ = _
  rw [TX.val_add]
  simp [Shape.add]

theorem TX.add_env [AddCommMonoid 𝕜] (l m r : Nat) (f g : Nat → Nat → Nat → 𝕜) :
    (TX.val (.env ⟨l, m, r, f⟩) + TX.val (.env ⟨l, m, r, g⟩) : TX σ 𝕜) = .val (.env ⟨l, m, r, fun a c b => f a c b + g a c b⟩) := by
  show TX.add _ _ = _
  rw [TX.val_add]
  simp [Shape.add]

theorem TX.sum_two [AddCommMonoid 𝕜] (l r : Nat) (f : Nat → σ → σ → Nat → Nat → 𝕜) (n : Nat) (hn : n ≠ 0) :
    ∑ t ∈ range n, (TX.val (.two ⟨l, r, f t⟩) : TX σ 𝕜) = .val (.two ⟨l, r, fun x y a b => ∑ t ∈ range n, f t x y a b⟩) := by
  induction n with
  | zero => exact absurd rfl hn
  | succ n ih =>
    by_cases h : n = 0
    · subst h
      simp
    · rw [sum_range_succ, ih h, TX.add_two]
      simp only [sum_range_succ]

theorem TX.sum_env [AddCommMonoid 𝕜] (l m r : Nat) (f : Nat → Nat → Nat → Nat → 𝕜) (n : Nat) (hn : n ≠ 0) :
    ∑ t ∈ range n, (TX.val (.env ⟨l, m, r, f t⟩) : TX σ 𝕜) = .val (.env ⟨l, m, r, fun a c b => ∑ t ∈ range n, f t a c b⟩) := by
  induction n with
  | zero => exact absurd rfl hn
  | succ n ih =>
    by_cases h : n = 0
    · subst h
      simp
    · rw [sum_range_succ, ih h, TX.add_env]
      simp only [sum_range_succ]

end

/-! ### Sectors -/

/-- Does the entry `a` of a leg with sectors of the degeneracies `ds` belong to sector `j`? -/
def inSec (ds : List Nat) (j a : Nat) : Bool := (ds.take j).sum ≤ a && a < (ds.take (j + 1)).sum

theorem inSec_sum {K : Type} [AddCommMonoid K] (ds : List Nat) (a : Nat) (x : K) : ∀ n, n ≤ ds.length →
    ∑ j ∈ range n, (if inSec ds j a then x else 0) = if a < (ds.take n).sum then x else 0 := by
  intro n
  induction n with
  | zero => intro _; simp
  | succ n ih =>
    intro hn
    rw [sum_range_succ, ih (by omega)]
    have hle : (ds.take n).sum ≤ (ds.take (n + 1)).sum := by
      rw [List.take_succ_eq_append_getElem (by omega), List.sum_append]
      omega
    by_cases h1 : a < (ds.take n).sum
    · have h3 : inSec ds n a = false := by simp [inSec]; omega
      have h4 : a < (ds.take (n + 1)).sum := by omega
      rw [if_pos h1, if_pos h4, h3]
      simp
    · by_cases h2 : a < (ds.take (n + 1)).sum
      · have h3 : inSec ds n a = true := by simp [inSec]; omega
        rw [if_neg h1, if_pos h2, if_pos h3, zero_add]
      · have h3 : inSec ds n a = false := by simp [inSec]; omega
        rw [if_neg h1, if_neg h2, h3]
        simp

section
variable {σ 𝕜 : Type} [RCLike 𝕜] [Fintype σ] [DecidableEq σ]

/-- The block of a leg of an environment: `TensorContraction1SectorExecutor` multiplies only the blocks whose first leg is in sector `j`. -/
def selE (ds : List Nat) (j : Nat) (e : Env3 𝕜) : Env3 𝕜 := ⟨e.d0, e.d1, e.d2, fun a c b => if inSec ds j a then e.v a c b else 0⟩

/-- The tensor with its last leg restricted to sector `j`. -/
def selR (ds : List Nat) (j : Nat) (t : Ten σ 𝕜) : Ten σ 𝕜 := ⟨t.l, t.r, fun s a b => if inSec ds j b then t.v s a b else 0⟩

/-- The tensor with its first leg restricted to sector `j`. -/
def selL (ds : List Nat) (j : Nat) (t : Ten σ 𝕜) : Ten σ 𝕜 := ⟨t.l, t.r, fun s a b => if inSec ds j a then t.v s a b else 0⟩

/-- The three contractions of `SlaveGrowLeftEnvironment` (env_ten_update_slave.h:68-81): `ket` is the tensor, restricted to the sector of the task, `bra` the whole tensor. -/
def partL (w : Ten (σ × σ) 𝕜) (e : Env3 𝕜) (bra ket : Ten σ 𝕜) : Env3 𝕜 :=
  ⟨bra.r, w.r, ket.r, fun a' c' b' => ∑ s, ∑ s', ∑ a ∈ range e.d0, ∑ c ∈ range e.d1, ∑ b ∈ range e.d2,
    star (bra.v s a a') * w.v (s, s') c c' * ket.v s' b b' * e.v a c b⟩

/-- The three contractions of `SlaveGrowRightEnvironment` (env_ten_update_slave.h:160-173): here the conjugated tensor is restricted. The dimension of the contracted legs
is read off the tensor. -/
def partR (w : Ten (σ × σ) 𝕜) (e : Env3 𝕜) (bra ket : Ten σ 𝕜) : Env3 𝕜 :=
  ⟨bra.l, w.l, ket.l, fun a c b => ∑ s, ∑ s', ∑ a' ∈ range bra.r, ∑ c' ∈ range e.d1, ∑ b' ∈ range ket.r,
    star (bra.v s a a') * w.v (s, s') c c' * ket.v s' b b' * e.v a' c' b'⟩

/-- The parts of the run that belong to the libraries: the sectors of a leg of a tensor (leg 0 or leg 2), the sorting of the tasks, the parallel decomposition. -/
structure MpiLib (σ 𝕜 SL : Type) where
  sec : Nat → TX σ 𝕜 → List Nat
  sortMul : (Nat → Nat) → Nat → Nat → List Nat
  sortGrow : (Nat → Nat) → Nat → Nat → List Nat
  svd : SvdLib σ 𝕜 SL

/-- The decomposition of one process. -/
def splitV (P : VmpsPar σ 𝕜) : Dir → Blk2 σ 𝕜 → Ten σ 𝕜 × Ten σ 𝕜
  | .r => P.splitR
  | .l => P.splitL

/-- **Specification**: what is assumed of the libraries. The sectors of a leg, at least one, make up the leg; the sorting functions sort; the parallel decomposition ends, with the result of
the serial one at the master. -/
structure MpiLib.OK {SL VL : Type} (L : MpiLib σ 𝕜 SL) (P : VmpsPar σ 𝕜) (lact : Nat → SL → Act SL VL) (W : Nat) : Prop where
  some : ∀ k x, L.sec k x ≠ []
  env : ∀ e, (L.sec 0 (.val (.env e))).sum = e.d0
  left : ∀ t, (L.sec 0 (.val (.site t))).sum = t.l
  right : ∀ t, (L.sec 2 (.val (.site t))).sum = t.r
  sortMul : ∀ deg n, MulOrder deg n W (L.sortMul deg n W)
  sortGrow : ∀ deg n, GrowOrder deg n W (L.sortGrow deg n W)
  svd : ∀ T, LibOk lact W (L.svd.inp T) L.svd.wk fun s => ∀ dir, L.svd.out dir s = splitV P dir T

/-! ### Lanczos at the master -/

/-- The Lanczos run: before the first product, later, or with undefined tensors. -/
inductive LzSt (V : Type) where
  | start (v : V)
  | run (s : LzM V)
  | broken

/-- The run together with the legs of the state. -/
structure LzX (σ 𝕜 : Type) [RCLike 𝕜] [Fintype σ] where
  l : Nat
  r : Nat
  st : LzSt (TwoV σ 𝕜 l r)

/-- The entries of a state with legs of given dimensions. -/
def vecOf (l r : Nat) (B : Blk2 σ 𝕜) : TwoV σ 𝕜 l r := WithLp.toLp 2 fun i => B.v i.2.1 i.2.2.1 i.1 i.2.2.2

/-- The state to be multiplied next. -/
def LzX.vec (s : LzX σ 𝕜) : TX σ 𝕜 :=
  match s.st with
  | .start v => .val (.two (ofV v))
  | .run m => .val (.two (ofV (m.bs m.m)))
  | .broken => .bad

/-- `Normalize` of the initial state (lanczos_solver_mpi_master.h:75-76). -/
noncomputable def lzStartX : TX σ 𝕜 → LzX σ 𝕜
  | .val (.two B) => ⟨B.l, B.r, .start (normalize 𝕜 (toV B))⟩
  | _ => ⟨0, 0, .broken⟩

/-- What the master does with a product and its overlap: the arithmetic of `MasterLanczosSolver` (lanczos_solver_mpi_master.h:84-228) from one product to the next is that of the DMRG master
(`lzBegin`, `lzNext`). The reported number of iterations, which differs by one, is not kept. -/
noncomputable def LzX.take (P : VmpsPar σ 𝕜) (s : LzX σ 𝕜) (x : TX σ 𝕜) (ov : ℝ) : LzX σ 𝕜 :=
  match x with
  | .val (.two B) =>
    if B.l = s.l ∧ B.r = s.r then
      ⟨s.l, s.r, match s.st with
        | .start v => .run (lzBegin 𝕜 P.tri (s.l * (Fintype.card σ * Fintype.card σ) * s.r) v (vecOf s.l s.r B) ov)
        | .run m => .run (lzNext 𝕜 P.tri P.maxIter P.tol m (vecOf s.l s.r B) ov)
        | .broken => .broken⟩
    else ⟨s.l, s.r, .broken⟩
  | _ => ⟨s.l, s.r, .broken⟩

/-- Is there a result? In the code there are two places with the same end: a zero vector (lanczos_solver_mpi_master.h:129-176), convergence or the last iteration (194-224). -/
def LzX.over (s : LzX σ 𝕜) : Bool :=
  match s.st with
  | .run m => m.res.isSome
  | _ => false

/-- The result. If there is none, nothing is said about the entries. -/
noncomputable def LzX.result (s : LzX σ 𝕜) : TX σ 𝕜 :=
  match s.st with
  | .run m => match m.res with
    | some g => .val (.gs (ofV g.vec) (some g.energy))
    | none => .val (.gs (ofV (0 : TwoV σ 𝕜 s.l s.r)) none)
  | _ => .val (.gs (ofV (0 : TwoV σ 𝕜 s.l s.r)) none)

/-- The block and the energy of a Lanczos result. -/
def gsB : TX σ 𝕜 → Blk2 σ 𝕜
  | .val (.gs B _) => B
  | _ => ⟨0, 0, fun _ _ _ _ => 0⟩
def gsE : TX σ 𝕜 → Option ℝ
  | .val (.gs _ e) => e
  | _ => none

/-- The environment in a tensor. -/
def toEnv : TX σ 𝕜 → Env3 𝕜
  | .val (.env e) => e
  | _ => ⟨0, 0, 0, fun _ _ _ => 0⟩

/-! ### Memory of the master -/

/-- A slot of the memory as a tensor. -/
def slotE : Option (Env3 𝕜) → TX σ 𝕜
  | some e => .val (.env e)
  | none => .bad
def slotM : Option (LTen σ 𝕜) → TX σ 𝕜
  | some t => .val (.site t.ten)
  | none => .bad

/-- The memory of the master: tensors in memory and files, or the error that stopped it. -/
abbrev MD (σ 𝕜 : Type) := Except Disk.Err (Sys (LTen σ 𝕜) (Env3 𝕜))

/-- Look at the memory. -/
def MD.see (d : MD σ 𝕜) (f : Mem (LTen σ 𝕜) (Env3 𝕜) → TX σ 𝕜) : TX σ 𝕜 :=
  match d with
  | .ok s => f s.mem
  | .error _ => .bad

/-- Change the memory. -/
def MD.upd (d : MD σ 𝕜) (f : Mem (LTen σ 𝕜) (Env3 𝕜) → Mem (LTen σ 𝕜) (Env3 𝕜)) : MD σ 𝕜 :=
  match d with
  | .ok s => .ok ⟨f s.mem, s.dsk⟩
  | .error e => .error e

/-- Operations on memory and files. -/
def MD.run (N : Nat) (ops : List (Disk.Op (LTen σ 𝕜) (Env3 𝕜))) (d : MD σ 𝕜) : MD σ 𝕜 :=
  match d with
  | .ok s => Verif.Disk.run N (N - 1) ops s
  | .error e => .error e

/-- The direction of an update. -/
def dirOf (right : Bool) : Dir := if right then .r else .l

/-- The numerical work of master and workers on a chain of `N` sites, without noise. -/
noncomputable def vmpsEng {SL : Type} (N : Nat) (P : VmpsPar σ 𝕜) (L : MpiLib σ 𝕜 SL) :
    Eng (TX σ 𝕜) ℝ (MD σ 𝕜) (LzX σ 𝕜) Unit (Dir → Ten σ 𝕜 × Ten σ 𝕜) SL where
  N := N
  mpo i := .val (.op (P.w i))
  sect0 x := (L.sec 0 x).length
  sect2 x := (L.sec 2 x).length
  deg0 x t := (L.sec 0 x).getD t 0
  deg2 x t := (L.sec 2 x).getD t 0
  -- lanczos_solver_mpi_slave.h:111-133, 146-164: the left environment restricted to the task, the other contractions in full
  mulPart e0 e1 e2 e3 st j :=
    match e0, e1, e2, e3, st with
    | .val (.env e), .val (.op w1), .val (.op w2), .val (.env f), .val (.two B) =>
      .val (.two (ofV (effHam (selE (L.sec 0 e0) j e) f w1 w2 B.l B.r (toV B))))
    | _, _, _, _, _ => .bad
  -- lanczos_solver_mpi_slave.h:128-133
  ovPart e0 e1 e2 e3 st j :=
    match e0, e1, e2, e3, st with
    | .val (.env e), .val (.op w1), .val (.op w2), .val (.env f), .val (.two B) =>
      RCLike.re (inner 𝕜 (toV B) (effHam (selE (L.sec 0 e0) j e) f w1 w2 B.l B.r (toV B)))
    | _, _, _, _, _ => 0
  growLPart e m x j :=
    match e, m, x with
    | .val (.env e), .val (.op w), .val (.site t) => .val (.env (partL w e t (selR (L.sec 2 x) j t)))
    | _, _, _ => .bad
  growRPart e m x j :=
    match e, m, x with
    | .val (.env e), .val (.op w), .val (.site t) => .val (.env (partR w e (selL (L.sec 0 x) j t) t))
    | _, _, _ => .bad
  expRPart _ _ _ _ _ _ := .default
  expLPart _ _ _ _ _ _ := .default
  lenv d k := d.see fun m => slotE (m.l k)
  renv d k := d.see fun m => slotE (m.r k)
  mps d i := d.see fun m => slotM (m.m i)
  -- two_site_update_finite_vmps_mpi_impl_master.h:293, 307: `lenvs(lenv_len + 1) = …`, `renvs(renv_len + 1) = …`
  putL d k x := d.upd fun m => { m with l := Function.update m.l k (some (toEnv x)) }
  putR d k x := d.upd fun m => { m with r := Function.update m.r k (some (toEnv x)) }
  -- vmps_mpi_init_master.h:156
  loadE d i := d.run N (if 1 < i then [.ldM (N - i)] else [])
  envE d _ := d.see fun m => slotE m.reg
  -- vmps_mpi_init_master.h:161-164
  putE d i x := (d.upd fun m => { m with reg := some (toEnv x) }).run N [.wrR i, .frM (N - i)]
  -- two_site_update_finite_vmps_mpi_impl_master.h:220-221
  pair d l := d.see fun m =>
    match m.m l, m.m (l + 1) with
    | some t, some u => .val (.two (mergeTen t.ten u.ten))
    | _, _ => .bad
  lzStart _ := lzStartX
  lzVec := LzX.vec
  lzTake := LzX.take P
  lzZero := LzX.over
  lzStop := LzX.over
  lzRes := LzX.result
  maxIter _ := P.maxIter
  needExp _ _ _ _ := false
  expVec _ _ _ gs _ := gs
  expMps d _ _ _ _ := d
  svdIn _ _ gs := L.svd.inp (gsB gs)
  svdWk := L.svd.wk
  svdRes s dir := L.svd.out dir s
  -- two_site_update_finite_vmps_mpi_impl_master.h:268-283
  setSvd d right l gs u := d.upd fun m => { m with
    m := Function.update (Function.update m.m l (some ⟨(u (dirOf right)).1, gsE gs⟩)) (l + 1) (some ⟨(u (dirOf right)).2, gsE gs⟩)
    clk := m.clk + 1 }
  sortMul := L.sortMul
  sortGrow := L.sortGrow

/-- The same as a whole: the sums of the contributions of all sectors. -/
noncomputable def vmpsFull {SL : Type} (N : Nat) (P : VmpsPar σ 𝕜) (L : MpiLib σ 𝕜 SL) : Full (TX σ 𝕜) ℝ (MD σ 𝕜) (Dir → Ten σ 𝕜 × Ten σ 𝕜) where
  mul e0 e1 e2 e3 st := ∑ t ∈ range (L.sec 0 e0).length, (vmpsEng N P L).mulPart e0 e1 e2 e3 st t
  ov e0 e1 e2 e3 st := ∑ t ∈ range (L.sec 0 e0).length, (vmpsEng N P L).ovPart e0 e1 e2 e3 st t
  growL e m x := ∑ t ∈ range (L.sec 2 x).length, (vmpsEng N P L).growLPart e m x t
  growR e m x := ∑ t ∈ range (L.sec 0 x).length, (vmpsEng N P L).growRPart e m x t
  expR _ _ _ _ _ := .default
  expL _ _ _ _ _ := .default
  svd _ _ gs := fun dir => splitV P dir (gsB gs)

/-! ### The master's program -/

/-- Local work as a job. -/
def opsJob (N : Nat) (ops : List (Disk.Op (LTen σ 𝕜) (Env3 𝕜))) : Eng.Job (MD σ 𝕜) Unit ℝ := .loc (MD.run N ops)

/-- The bodies of the two loops of `TwoSiteFiniteVMPSSweep` (two_site_update_finite_vmps_mpi_impl_master.h:152-163). -/
def jobsR (N lb i : Nat) : List (Eng.Job (MD σ 𝕜) Unit ℝ) := [opsJob N (loadR2 N lb i), .upd ⟨true, i, (), none⟩, opsJob N (dumpR2 N i)]
def jobsL (N rb i : Nat) : List (Eng.Job (MD σ 𝕜) Unit ℝ) := [opsJob N (loadL2 N rb i), .upd ⟨false, i, (), none⟩, opsJob N (dumpL2 N i)]

/-- `TwoSiteFiniteVMPSSweep` (two_site_update_finite_vmps_mpi_impl_master.h:138-165). -/
def sweepJ (N lb rb : Nat) : List (Eng.Job (MD σ 𝕜) Unit ℝ) :=
  opsJob N [.calc freshEnvs] :: ((sitesR lb rb).flatMap (jobsR N lb) ++ ((sitesL lb rb).flatMap (jobsL N rb) ++ [opsJob N [.calc freshEnvs]]))

/-- `InitEnvsMaster` (vmps_mpi_init_master.h:136-186). The files of the trivial environments are written by the master alone. The order `init_grow_env_finish` (:185) comes at the end
of `.envs`, that is before the master writes the trivial left environment; in the code it comes after. -/
def initJ (A : Alg (LTen σ 𝕜) (Env3 𝕜)) (N usn : Nat) : List (Eng.Job (MD σ 𝕜) Unit ℝ) :=
  [opsJob N [.ldM (N - 1), .calc (startR A N), .wrR 0], .envs (N - usn), opsJob N [.ldM 0, .calc (startL A), .wrL 0, .frM 0, .calc (assertEmpty N)]]

/-- `MasterTwoSiteFiniteVMPS` after the start (two_site_update_finite_vmps_mpi_impl_master.h:115-130, vmps_mpi_init_master.h:74-132): boundary tensors, right environments if they are not there, boundary
environments, sweeps. The boundary environments are computed by the master alone (`UpdateBoundaryEnvs`, with the functions of `A`). -/
def masterJ (A : Alg (LTen σ 𝕜) (Env3 𝕜)) (G : Gauge (LTen σ 𝕜)) (bl br : Nat → Bool) (N : Nat) (d : Dsk (LTen σ 𝕜) (Env3 𝕜)) (k : Nat) : List (Eng.Job (MD σ 𝕜) Unit ℝ) :=
  opsJob N (checkBoundary G bl br N) :: ((if needEnvs N (lbOf bl N) (rbOf br N) d then initJ A N (lbOf bl N + 2) else []) ++
    (opsJob N (updateBoundary A N (lbOf bl N) (rbOf br N)) :: opsJob N [.ldM (lbOf bl N + 1)] ::
      ((List.replicate k (sweepJ N (lbOf bl N) (rbOf br N))).flatten ++ [opsJob N [.dpM (lbOf bl N + 1) true]])))

end
end Verif.Mpi
