import Verif.Mpi.DmrgRun
import Verif.Props.Dmrg
import Verif.Props.MpiOrders

/-!
# C76: the parallel DMRG executor computes what the serial one computes

The programs of master and workers are `mExecute` and `wBodyD` (`Verif.Mpi.DmrgProg`); an execution is any interleaving of their MPI calls, with sends that may or may not
be buffered and with receives from any source that take any waiting message.  The serial program is `Disk.dmrg` (C26) with the same numerical work done by one process (`DEng.alg`).
A rank that gets a message or an order it does not expect, misses a result, or whose files or tensors are not there, is at `crash`.
-/
namespace Verif.Props
open Verif.Mpi
open Verif.Disk (Alg Gauge CSys CDsk Mem COnDisk lbOf rbOf gauged centred optSweeps Holds dmrg)

section
variable {M B Hs St Cb Cs O L SL VL : Type} [AddCommMonoid O] [AddCommMonoid St]

/-- The start: a master, with its memory and files, and `W` workers. -/
def dmrgStart (E : DEng M B Hs St Cb Cs O L SL) (lact : Nat → SL → Act SL VL) (W : Nat) (G P : Gauge M) (bl br : Nat → Bool) (n : Nat) (s : CSys M B) :
    Mpi.St (DProc M B Hs St Cb Cs O SL VL) (DPV M B Hs St O VL) :=
  fresh (ranks W (mExecute W E lact G P bl br n s) fun _ => .head .start)

/-- **Specification**: what is claimed of the executions from a state: there is a bound on their length; no rank ever crashes; an execution that cannot go on has ended, with no
message left, the master has returned with memory and files `s'`, and every worker has returned. -/
structure DmrgEnds (E : DEng M B Hs St Cb Cs O L SL) (lact : Nat → SL → Act SL VL) (W : Nat) (s0 : Mpi.St (DProc M B Hs St Cb Cs O SL VL) (DPV M B Hs St O VL))
    (s' : CSys M B) : Prop where
  bounded : ∃ b, ∀ k σ, Steps (pact lact (wBodyD W E lact)) k s0 σ → k ≤ b
  safe : ∀ k σ r, Steps (pact lact (wBodyD W E lact)) k s0 σ → σ.proc r ≠ .crash
  ends : ∀ k σ, Steps (pact lact (wBodyD W E lact)) k s0 σ → Stuck (pact lact (wBodyD W E lact)) σ →
    Final (pact lact (wBodyD W E lact)) σ ∧ σ.proc 0 = .halt (some s') ∧ ∀ r, 1 ≤ r → r ≤ W → σ.proc r = .halt none

variable {E : DEng M B Hs St Cb Cs O L SL} {lact : Nat → SL → Act SL VL} {W : Nat}

/-- **C76**. With at least one worker, whatever tasks each worker gets and whatever the interleaving, the parallel run ends with the memory and the files of the serial run from the same
files, provided the latter succeeds. -/
theorem C76_run (hW : 1 ≤ W) (hE : E.OK lact W) {G P : Gauge M} {bl br : Nat → Bool} {n : Nat} {s s' : CSys M B}
    (h : dmrg E.alg E.w E.N G P bl br n quiet s = .ok s') : DmrgEnds E lact W (dmrgStart E lact W G P bl br n s) s' := by
  obtain ⟨b, hb⟩ := good_execute (Q := fun σ => σ 0 = .halt (some s') ∧ ∀ r, 1 ≤ r → r ≤ W → σ r = .halt none) hW hE (fun _ _ => rfl) rfl h
    ⟨rfl, fun r r1 r2 => ranks_pos r1 r2⟩
  refine ⟨⟨b, hb.bound⟩, fun k σ r hs hc => ?_, fun k σ hs hst => hb.good _ _ hs hst⟩
  obtain ⟨k', σ', hs', hst⟩ := exists_stuck (s0 := σ) b fun j σ' hj => by
    have := hb.bound _ _ (hs.trans hj)
    omega
  have hr : σ'.proc r = .crash := by
    rw [hs'.stays (r := r) (by rw [hc]; rfl), hc]
  obtain ⟨_, h0, h1⟩ := hb.good _ _ (hs.trans hs') hst
  by_cases hr0 : r = 0
  · subst hr0; rw [h0] at hr; cases hr
  · by_cases hrW : r ≤ W
    · rw [h1 r (by omega) hrW] at hr; cases hr
    · have ho : (dmrgStart E lact W G P bl br n s).proc r = .off := by
        show ranks W (mExecute W E lact G P bl br n s) (fun _ => .head .start) r = .off
        unfold ranks
        rw [if_neg hr0, if_neg hrW]
      have := (hs.trans hs').stays (r := r) (by rw [ho]; rfl)
      rw [hr, ho] at this
      cases this

/-- The parallel run can only end, and it can end: from every state of an execution one can go on to the final state. -/
theorem DmrgEnds.reaches {s0 : Mpi.St (DProc M B Hs St Cb Cs O SL VL) (DPV M B Hs St O VL)} {s' : CSys M B} (h : DmrgEnds E lact W s0 s') {k : Nat}
    {σ : Mpi.St (DProc M B Hs St Cb Cs O SL VL) (DPV M B Hs St O VL)} (hs : Steps (pact lact (wBodyD W E lact)) k s0 σ) :
    ∃ k' σ', Steps (pact lact (wBodyD W E lact)) k' σ σ' ∧ σ'.proc 0 = .halt (some s') := by
  obtain ⟨b, hb⟩ := h.bounded
  obtain ⟨k', σ', hs', hst⟩ := exists_stuck (s0 := σ) b fun j σ' hj => by
    have := hb _ _ (hs.trans hj)
    omega
  exact ⟨k', σ', hs', (h.ends _ _ (hs.trans hs') hst).2.1⟩

/-- **C76** (the files). From an MPS on disk, with right block operators that are missing or belong to it, every execution ends, and then the tensor files hold the result of the
sweeps of one process, and the right block operators are those of the MPS on disk. -/
theorem C76_files (hW : 1 ≤ W) (hE : E.OK lact W) (H : E.alg.Legs) {G P : Gauge M} (hG : G.Laws E.alg) (bl br : Nat → Bool) (D : E.alg.Dims E.w E.N) (hN : 3 ≤ E.N) (clk : Nat)
    {ψ : Nat → M} {d : CDsk M B} (hm : COnDisk E.N ψ d) (hr : OpsReusable E.alg E.w E.N (lbOf bl E.N) (rbOf br E.N) ψ d) (k : Nat) :
    ∃ s', DmrgEnds E lact W (dmrgStart E lact W G P bl br k ⟨Mem.blank clk, d⟩) s' ∧
      COnDisk E.N (centred P (lbOf bl E.N)
        (optSweeps E.alg E.N (lbOf bl E.N) (rbOf br E.N) k (gauged G E.N (lbOf bl E.N) (rbOf br E.N) ψ, clk)).1) s'.dsk ∧
      ∀ j, E.N ≤ j + 1 + rbOf br E.N → j + lbOf bl E.N + 2 ≤ E.N → Holds (s'.dsk.r j) (E.alg.renv E.N (centred P (lbOf bl E.N)
        (optSweeps E.alg E.N (lbOf bl E.N) (rbOf br E.N) k (gauged G E.N (lbOf bl E.N) (rbOf br E.N) ψ, clk)).1) j) := by
  obtain ⟨s', h1, h2, h3, -⟩ := C26_run (P := P) H hG bl br D hN clk hm hr k
  exact ⟨s', C76_run hW hE h1, h2, h3⟩

end

/-! ### The hypotheses can be met -/

/-- An example with numbers as tensors: five sites, Hamiltonian of bond dimensions 1, 3, 4, 2, 3, 1 with all entries present, at most three Lanczos products, and the
decomposition of `demoAct`, in which the master exchanges messages with rank 1. -/
def demoDmrg : DEng Nat Nat Nat Nat Nat Nat Nat (Nat × Nat) DemoLib where
  N := 5
  w := exW
  trivL _ := [1]
  trivR _ := [1]
  bgrp i es j := es.zipIdx.map fun p => (p.1, i + p.2 * j)
  sgrp i es j := es.zipIdx.map fun p => (i + p.2 * j, p.1)
  mkB l := (l.map fun p => p.1 * p.2).sum
  mkS l := (l.map fun p => p.1 + p.2).sum
  mul b s v := (b + s + 1) * v % 11
  ovl v x := v * x
  absL b t := (b + t) % 13
  absR s t := (s + 2 * t) % 17
  start t u := t + u
  lz0 t u x ov := (0, (t + u + x + ov) % 19)
  lzVec l := if l.1 < 3 ∧ l.2 ≠ 0 then some l.2 else none
  lzTake l x ov := (l.1 + 1, (l.2 + x + ov) % 19)
  iters := 3
  svdIn t u res := .master (t + u + res.2)
  svdWk := .worker
  svdOut clk _ i _ _ _ s := match s with
    | .got x => (x + clk, i)
    | _ => (0, 0)
  svdVal clk _ i t u res := (t + u + res.2 + 1 + clk, i)

theorem demoDmrg_ok {W : Nat} (hW : 1 ≤ W) : demoDmrg.OK demoAct W where
  ovl_zero _ := rfl
  ovl_add v x y := Nat.mul_add v x y
  stops H t u := by
    have : ∀ n l, 3 ≤ n + l.1 → ∃ res, demoDmrg.lzRun H n l = some res := by
      intro n
      induction n with
      | zero =>
        intro l hl
        have h : demoDmrg.lzVec l = none := if_neg (by omega)
        exact ⟨l, by simp only [DEng.lzRun, h]⟩
      | succ n ih =>
        intro l hl
        cases h : demoDmrg.lzVec l with
        | none => exact ⟨l, by simp only [DEng.lzRun, h]⟩
        | some v =>
          obtain ⟨res, hr⟩ := ih (demoDmrg.lzTake l (H v) (demoDmrg.ovl v (H v))) (by show 3 ≤ n + (l.1 + 1); omega)
          exact ⟨res, by simp only [DEng.lzRun, h]; exact hr⟩
    exact this 3 _ (Nat.le_refl 3)
  svd clk dir i t u res := by
    obtain ⟨h1, h2, h3⟩ := demo_svd W hW (t + u + res.2)
    obtain ⟨b, hb⟩ := h1
    refine ⟨⟨b, hb.bound, fun n σ hs hst => ?_⟩, h2, h3⟩
    obtain ⟨hf, hq⟩ := hb.good n σ hs hst
    refine ⟨hf, ?_⟩
    show (match σ.proc 0 with | .got x => (x + clk, i) | _ => (0, 0)) = (t + u + res.2 + 1 + clk, i)
    cases hp : σ.proc 0 with
    | got x => rw [hp] at hq; rw [show x = t + u + res.2 + 1 from hq]
    | _ => rw [hp] at hq; exact absurd hq (by simp)

theorem demoDmrg_dims : demoDmrg.alg.Dims demoDmrg.w demoDmrg.N :=
  ⟨fun _ => rfl, fun _ => rfl, fun _ _ _ _ => by simp [DEng.alg], fun _ _ _ _ => by simp [DEng.alg]⟩

/-- Three workers, two sweeps, a directory with tensors and no block operators. -/
example : ∃ s', DmrgEnds demoDmrg demoAct 3 (dmrgStart demoDmrg demoAct 3 exGauge exGauge (fun _ => true) (fun _ => true) 2 ⟨Mem.blank 0, exCDsk⟩) s' := by
  obtain ⟨s', h, -⟩ := C76_files (P := exGauge) (by omega : 1 ≤ 3) (demoDmrg_ok (by omega)) ⟨fun _ _ _ _ _ _ _ => rfl, fun _ _ _ _ _ _ _ => rfl⟩
    (⟨fun _ _ _ => rfl, fun _ _ _ => rfl, fun _ _ _ => rfl, fun _ _ _ => rfl, fun _ _ _ _ => rfl⟩ : exGauge.Laws demoDmrg.alg)
    (fun _ => true) (fun _ => true) demoDmrg_dims (by decide) 0 (ψ := fun j => j) (d := exCDsk) (fun _ _ => rfl)
    (fun h => absurd h (by decide +kernel)) 2
  exact ⟨s', h⟩

/-- What the tensor files hold at the end of this run. -/
example : (dmrg demoDmrg.alg exW 5 exGauge exGauge (fun _ => true) (fun _ => true) 2 quiet ⟨Mem.blank 0, exCDsk⟩).toOption.map (fun s => (List.range 5).map fun j => (s.dsk.m j matches .whole _, match s.dsk.m j with | .whole t => t | _ => 0)) =
    some [(true, 115), (true, 105), (true, 2), (true, 3), (true, 4)] := by
  decide +kernel

end Verif.Props
