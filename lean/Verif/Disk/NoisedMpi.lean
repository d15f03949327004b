import Verif.Disk.Threads
import Verif.Disk.Noised
import Mathlib.Data.List.Forall2

/-!
# The noised two-site sweep of the MPI program, with its two threads

algo_mpi/vmps/two_site_update_noised_finite_vmps_mpi_impl.h:81-248, the master process. The work that the master shares with
the workers (`MasterTwoSiteFiniteVMPSUpdate`) is one operation of the main thread; the protocol behind it is modelled in
`Verif/Mpi`. The environment vectors have `N-1` slots here (two_site_update_noised_finite_vmps_mpi_impl.h:170-171), `N` in the serial program.
-/
namespace Verif.Disk

variable {T E : Type}

section
variable (A : Alg T E) (O : Opt3 T E) (C : Canon T) (N : Nat)

/-- The body of the first loop of `TwoSiteFiniteVMPSSweep` (two_site_update_noised_finite_vmps_mpi_impl.h:179-208): the thread that
loads for site `i+1` is started, the update is made, the thread that dumped for site `i-1` is joined, the one for `i` started, the load
thread joined. `LoadRelatedTensOnTwoSiteAlgWhenNoisedRightMoving` is the serial function (`loadR3`),
`DumpRelatedTensOnTwoSiteAlgWhenRightMoving` (two_site_update_finite_vmps_mpi_impl_master.h:418-442) does the same as `dumpR3`. -/
def bodyR (lb rb i : Nat) : List (Cmd T E) :=
  (if i < rb - 2 then [.spawn .ld (loadR3 N lb (i + 1))] else []) ++
  (.op (.calc (upd3R A O N (N - 1) i)) ::
  ((if lb < i then [.join .dp] else []) ++
  (.spawn .dp (dumpR3 N i) ::
  (if i < rb - 2 then [.join .ld] else []))))

/-- The body of the second loop (two_site_update_noised_finite_vmps_mpi_impl.h:213-244), the dump being
`DumpRelatedTensOnTwoSiteAlgWhenLeftMoving` (two_site_update_finite_vmps_mpi_impl_master.h:445-473). -/
def bodyL (lb rb i : Nat) : List (Cmd T E) :=
  (if lb + 2 < i then [.spawn .ld (loadL3 N rb (i - 1))] else []) ++
  (.op (.calc (upd3L A O N (N - 1) i)) ::
  ((if i < rb then [.join .dp] else []) ++
  (.spawn .dp (dumpL3 N i) ::
  (if lb + 2 < i then [.join .ld] else []))))

/-- `TwoSiteFiniteVMPSSweep` (two_site_update_noised_finite_vmps_mpi_impl.h:157-248): `i = lb … rb-2`, then `i = rb … lb+2`. -/
def mpiSweep3 (lb rb : Nat) : List (Cmd T E) :=
  .op (.calc freshEnvs) ::
  ((loadR3 N lb lb).map .op ++ ((List.range' lb (rb - 1 - lb)).flatMap (bodyR A O N lb rb) ++ [.join .dp])) ++
  ((loadL3 N rb rb).map .op ++ ((List.range' (lb + 2) (rb - 1 - lb)).reverse.flatMap (bodyL A O N lb rb) ++ [.join .dp])) ++
  [.op (.calc freshEnvs)]

/-- The sweeps of `MasterTwoSiteFiniteVMPSWithNoise` with the first loads and the last dumps
(two_site_update_noised_finite_vmps_mpi_impl.h:115-133). -/
def mpiSweeps3 (lb rb k : Nat) : List (Cmd T E) :=
  [.op (.ldM lb), .op (.ldM (lb + 1))] ++ ((List.replicate k (mpiSweep3 A O N lb rb)).flatten ++
    [.op (.calc (canonC C lb)), .op (.dpM lb true), .op (.dpM (lb + 1) true)])

/-- `NoisedVMPSPostProcess` (two_site_update_noised_finite_vmps_mpi_impl.h:142-155). `DumpTen(path, site)` does not release the
tensor (finite_mps.h:115-117). `P.gr i` is `RightCanonicalizeTen(i)`, which acts on the sites `i-1` and `i`. -/
def noisedPost (P : Gauge T) (lb : Nat) : List (Op T E) :=
  .ldM (lb + 1) :: ((List.range' 1 (lb + 1)).reverse.flatMap (fun i => [.ldM (i - 1), .calc (canR P i), .dpM i false]) ++
    [.dpM 0 false])

/-- The master process, `MasterTwoSiteFiniteVMPSWithNoise` (two_site_update_noised_finite_vmps_mpi_impl.h:82-138), when the
environments on disk are `d`: the initialisation, the sweeps, `assert(mps.empty())`, the post-processing. -/
def mpiNoised (G P : Gauge T) (bl br : Nat → Bool) (d : Dsk T E) (k : Nat) : List (Cmd T E) :=
  (vmpsInit A G bl br N d).map .op ++ (mpiSweeps3 A O C N (lbOf bl N) (rbOf br N) k ++
    (.calc (assertEmpty N) :: noisedPost P (lbOf bl N)).map .op)

end

/-! ### What the operations touch -/

/-- What the update to the right at site `i` reads. -/
def updRrd (N i : Nat) (x : Res) : Prop :=
  x = .memM i ∨ x = .memM (i + 1) ∨ x = .memM (i + 2) ∨ x = .memL i ∨ x = .memR (N - (i + 2)) ∨ x = .clk

/-- What it writes. -/
def updRwr (i : Nat) (x : Res) : Prop := x = .memM i ∨ x = .memM (i + 1) ∨ x = .memM (i + 2) ∨ x = .memL (i + 1) ∨ x = .clk

/-- What the update to the left at site `i` reads. -/
def updLrd (N i : Nat) (x : Res) : Prop :=
  x = .memM i ∨ x = .memM (i - 1) ∨ x = .memM (i - 2) ∨ x = .memL (i - 1) ∨ x = .memR (N - i - 1) ∨ x = .clk

/-- What it writes. -/
def updLwr (N i : Nat) (x : Res) : Prop := x = .memM i ∨ x = .memM (i - 1) ∨ x = .memM (i - 2) ∨ x = .memR (N - i) ∨ x = .clk

theorem fp_calc {N n : Nat} {f : Mem T E → Except Err (Mem T E)} {R W : Res → Prop} (hdisk : ∀ i, (¬ W (.filM i)) ∧ (¬ W (.filL i)) ∧ ¬ W (.filR i))
    (frame : ∀ m m', f m = .ok m' → ∀ x, ¬ W x → Same (⟨m, ⟨fun _ => .gone, fun _ => .gone, fun _ => .gone⟩⟩ : Sys T E) ⟨m', ⟨fun _ => .gone, fun _ => .gone, fun _ => .gone⟩⟩ x)
    (dep : ∀ m m' t, f m = .ok m' → (∀ x, R x → Same (⟨m, ⟨fun _ => .gone, fun _ => .gone, fun _ => .gone⟩⟩ : Sys T E) ⟨t, ⟨fun _ => .gone, fun _ => .gone, fun _ => .gone⟩⟩ x) →
      ∃ t', f t = .ok t' ∧ ∀ x, W x → Same (⟨m', ⟨fun _ => .gone, fun _ => .gone, fun _ => .gone⟩⟩ : Sys T E) ⟨t', ⟨fun _ => .gone, fun _ => .gone, fun _ => .gone⟩⟩ x) :
    FP N n (.calc f) R W := by
  constructor
  · intro s s' h x hx
    simp only [exec] at h
    cases hf : f s.mem with
    | error e => rw [hf] at h; cases h
    | ok m =>
      rw [hf] at h; cases h
      have := frame _ _ hf x hx
      cases x <;> first | exact rfl | exact this
  · intro s s' t h hR
    simp only [exec] at h
    cases hf : f s.mem with
    | error e => rw [hf] at h; cases h
    | ok m =>
      rw [hf] at h; cases h
      obtain ⟨t', e1, e2⟩ := dep _ _ t.mem hf (fun x hx => by
        have := hR x hx
        cases x <;> first | exact rfl | exact this)
      refine ⟨⟨t', t.dsk⟩, by simp only [exec, e1]; rfl, fun x hx => ?_⟩
      have := e2 x hx
      cases x with
      | filM i => exact absurd hx (hdisk i).1
      | filL i => exact absurd hx (hdisk i).2.1
      | filR i => exact absurd hx (hdisk i).2.2
      | _ => exact this

theorem bind_ok {α β : Type} {x : Except Err α} {f : α → Except Err β} {b : β} (h : (x >>= f) = .ok b) : ∃ a, x = .ok a ∧ f a = .ok b := by
  cases x with
  | error e => cases h
  | ok a => exact ⟨a, rfl, h⟩

theorem fp_updR (A : Alg T E) (O : Opt3 T E) (N n i : Nat) : FP N n (.calc (upd3R A O N n i)) (updRrd N i) (updRwr i) := by
  refine fp_calc (fun j => by simp [updRwr]) (fun m m' h x hx => ?_) (fun m m' t h hR => ?_)
  · unfold upd3R at h
    split at h
    · obtain ⟨e, he, h⟩ := bind_ok h
      obtain ⟨f, hf, h⟩ := bind_ok h
      obtain ⟨a, ha, h⟩ := bind_ok h
      obtain ⟨b, hb, h⟩ := bind_ok h
      obtain ⟨c, hc, h⟩ := bind_ok h
      cases h
      simp only [updRwr, not_or] at hx
      cases x with
      | memM j =>
        show m.m j = Function.update (Function.update (Function.update m.m i _) (i + 1) _) (i + 2) _ j
        rw [Function.update_of_ne (fun e => hx.2.2.1 (by rw [e])), Function.update_of_ne (fun e => hx.2.1 (by rw [e])),
          Function.update_of_ne (fun e => hx.1 (by rw [e]))]
      | memL j =>
        show m.l j = Function.update m.l (i + 1) _ j
        rw [Function.update_of_ne (fun e => hx.2.2.2.1 (by rw [e]))]
      | clk => exact absurd rfl hx.2.2.2.2
      | _ => exact rfl
    · cases h
  · unfold upd3R at h ⊢
    split at h
    · rename_i hb
      rw [if_pos hb]
      have r1 : m.m i = t.m i := hR (.memM i) (by simp [updRrd])
      have r2 : m.m (i + 1) = t.m (i + 1) := hR (.memM (i + 1)) (by simp [updRrd])
      have r3 : m.m (i + 2) = t.m (i + 2) := hR (.memM (i + 2)) (by simp [updRrd])
      have r4 : m.l i = t.l i := hR (.memL i) (by simp [updRrd])
      have r5 : m.r (N - (i + 2)) = t.r (N - (i + 2)) := hR (.memR (N - (i + 2))) (by simp [updRrd])
      have r6 : m.clk = t.clk := hR .clk (by simp [updRrd])
      obtain ⟨e, he, h⟩ := bind_ok h
      obtain ⟨f, hf, h⟩ := bind_ok h
      obtain ⟨a, ha, h⟩ := bind_ok h
      obtain ⟨b, hb, h⟩ := bind_ok h
      obtain ⟨c, hc, h⟩ := bind_ok h
      cases h
      rw [← r4, he, ← r5, hf, ← r1, ha, ← r2, hb, ← r3, hc, ← r6]
      refine ⟨_, rfl, fun x hx => ?_⟩
      rcases hx with rfl | rfl | rfl | rfl | rfl <;> simp [Same, Function.update]
    · cases h

theorem fp_updL (A : Alg T E) (O : Opt3 T E) (N n i : Nat) : FP N n (.calc (upd3L A O N n i)) (updLrd N i) (updLwr N i) := by
  refine fp_calc (fun j => by simp [updLwr]) (fun m m' h x hx => ?_) (fun m m' t h hR => ?_)
  · unfold upd3L at h
    split at h
    · obtain ⟨e, he, h⟩ := bind_ok h
      obtain ⟨f, hf, h⟩ := bind_ok h
      obtain ⟨a, ha, h⟩ := bind_ok h
      obtain ⟨b, hb, h⟩ := bind_ok h
      obtain ⟨c, hc, h⟩ := bind_ok h
      cases h
      simp only [updLwr, not_or] at hx
      cases x with
      | memM j =>
        show m.m j = Function.update (Function.update (Function.update m.m (i - 2) _) (i - 1) _) i _ j
        rw [Function.update_of_ne (fun e => hx.1 (by rw [e])), Function.update_of_ne (fun e => hx.2.1 (by rw [e])),
          Function.update_of_ne (fun e => hx.2.2.1 (by rw [e]))]
      | memR j =>
        show m.r j = Function.update m.r (N - i) _ j
        rw [Function.update_of_ne (fun e => hx.2.2.2.1 (by rw [e]))]
      | clk => exact absurd rfl hx.2.2.2.2
      | _ => exact rfl
    · cases h
  · unfold upd3L at h ⊢
    split at h
    · rename_i hb
      rw [if_pos hb]
      have r1 : m.m i = t.m i := hR (.memM i) (by simp [updLrd])
      have r2 : m.m (i - 1) = t.m (i - 1) := hR (.memM (i - 1)) (by simp [updLrd])
      have r3 : m.m (i - 2) = t.m (i - 2) := hR (.memM (i - 2)) (by simp [updLrd])
      have r4 : m.l (i - 1) = t.l (i - 1) := hR (.memL (i - 1)) (by simp [updLrd])
      have r5 : m.r (N - i - 1) = t.r (N - i - 1) := hR (.memR (N - i - 1)) (by simp [updLrd])
      have r6 : m.clk = t.clk := hR .clk (by simp [updLrd])
      obtain ⟨e, he, h⟩ := bind_ok h
      obtain ⟨f, hf, h⟩ := bind_ok h
      obtain ⟨a, ha, h⟩ := bind_ok h
      obtain ⟨b, hb', h⟩ := bind_ok h
      obtain ⟨c, hc, h⟩ := bind_ok h
      cases h
      rw [← r4, he, ← r5, hf, ← r3, ha, ← r2, hb', ← r1, hc, ← r6]
      refine ⟨_, rfl, fun x hx => ?_⟩
      rcases hx with rfl | rfl | rfl | rfl | rfl <;> simp [Same, Function.update]
    · cases h

/-- Operations on files and slots that touch different things. -/
theorem indep_ops {N n : Nat} {o o' : Op T E} (h : ∀ f, o ≠ .calc f) (h' : ∀ f, o' ≠ .calc f) (h1 : ∀ x, o.wr x → ¬ o'.rd x)
    (h2 : ∀ x, o'.wr x → ¬ o.rd x) (h3 : ∀ x, o.wr x → ¬ o'.wr x) : Indep N n o o' :=
  ⟨_, _, _, _, FP.ops N n o h, FP.ops N n o' h', h1, h2, h3⟩

/-- The load for site `i+1` and a dump for site `i` or before. -/
theorem indep_load_dumpR (N n lb i j : Nat) (hi : lb ≤ i) (hj : j ≤ i) (hN : i + 3 ≤ N) :
    IndepL N n (loadR3 N lb (i + 1) : List (Op T E)) (dumpR3 N j) := by
  unfold loadR3 dumpR3
  rw [if_pos (by omega)]
  intro o ho o' ho'
  simp only [List.mem_cons, List.not_mem_nil, or_false] at ho ho'
  rcases ho with rfl | rfl | rfl <;> rcases ho' with rfl | rfl | rfl | rfl <;>
    (refine indep_ops (fun f => by simp) (fun f => by simp) (fun x => ?_) (fun x => ?_) (fun x => ?_) <;>
      simp only [Op.rd, Op.wr, not_or, not_false_eq_true, implies_true] <;> intro hx <;>
      first
        | (subst hx; simp <;> omega)
        | (rcases hx with rfl | rfl <;> simp <;> omega))

theorem indep_load_updR (A : Alg T E) (O : Opt3 T E) (N n lb i : Nat) (hi : lb ≤ i) (hN : i + 3 ≤ N) :
    IndepL N n [.calc (upd3R A O N n i)] (loadR3 N lb (i + 1)) := by
  unfold loadR3
  rw [if_pos (by omega)]
  intro o ho o' ho'
  simp only [List.mem_cons, List.not_mem_nil, or_false] at ho ho'
  subst ho
  have hc : ∀ f, o' ≠ .calc f := by rcases ho' with rfl | rfl | rfl <;> simp
  refine ⟨_, _, _, _, fp_updR A O N n i, FP.ops N n o' hc, fun x hx => ?_, fun x hx => ?_, fun x hx => ?_⟩
  all_goals
    rcases ho' with rfl | rfl | rfl <;> simp only [Op.rd, Op.wr, updRrd, updRwr, not_or, not_false_eq_true] at hx ⊢ <;>
      first
        | (subst hx; simp <;> omega)
        | (rcases hx with rfl | rfl | rfl | rfl | rfl <;> simp <;> omega)

theorem indep_upd_dumpR (A : Alg T E) (O : Opt3 T E) (N n i j : Nat) (hj : j < i) (hN : i + 2 ≤ N) :
    IndepL N n [.calc (upd3R A O N n i)] (dumpR3 N j) := by
  unfold dumpR3
  intro o ho o' ho'
  simp only [List.mem_cons, List.not_mem_nil, or_false] at ho ho'
  subst ho
  have hc : ∀ f, o' ≠ .calc f := by rcases ho' with rfl | rfl | rfl | rfl <;> simp
  refine ⟨_, _, _, _, fp_updR A O N n i, FP.ops N n o' hc, fun x hx => ?_, fun x hx => ?_, fun x hx => ?_⟩
  all_goals
    rcases ho' with rfl | rfl | rfl | rfl <;> simp only [Op.rd, Op.wr, updRrd, updRwr, not_or, not_false_eq_true] at hx ⊢ <;>
      first
        | (subst hx; simp <;> omega)
        | (rcases hx with rfl | rfl <;> simp <;> omega)
        | (rcases hx with rfl | rfl | rfl | rfl | rfl <;> simp <;> omega)

theorem indep_load_dumpL (N n rb i j : Nat) (hi : 3 ≤ i) (hr : i ≤ rb) (hj : i ≤ j) :
    IndepL N n (loadL3 N rb (i - 1) : List (Op T E)) (dumpL3 N j) := by
  unfold loadL3 dumpL3
  rw [if_pos (by omega)]
  intro o ho o' ho'
  simp only [List.mem_cons, List.not_mem_nil, or_false] at ho ho'
  rcases ho with rfl | rfl | rfl <;> rcases ho' with rfl | rfl | rfl | rfl <;>
    (refine indep_ops (fun f => by simp) (fun f => by simp) (fun x => ?_) (fun x => ?_) (fun x => ?_) <;>
      simp only [Op.rd, Op.wr, not_or, not_false_eq_true, implies_true] <;> intro hx <;>
      first
        | (subst hx; simp <;> omega)
        | (rcases hx with rfl | rfl <;> simp <;> omega))

theorem indep_load_updL (A : Alg T E) (O : Opt3 T E) (N n rb i : Nat) (hi : 3 ≤ i) (hr : i ≤ rb) :
    IndepL N n [.calc (upd3L A O N n i)] (loadL3 N rb (i - 1)) := by
  unfold loadL3
  rw [if_pos (by omega)]
  intro o ho o' ho'
  simp only [List.mem_cons, List.not_mem_nil, or_false] at ho ho'
  subst ho
  have hc : ∀ f, o' ≠ .calc f := by rcases ho' with rfl | rfl | rfl <;> simp
  refine ⟨_, _, _, _, fp_updL A O N n i, FP.ops N n o' hc, fun x hx => ?_, fun x hx => ?_, fun x hx => ?_⟩
  all_goals
    rcases ho' with rfl | rfl | rfl <;> simp only [Op.rd, Op.wr, updLrd, updLwr, not_or, not_false_eq_true] at hx ⊢ <;>
      first
        | (subst hx; simp <;> omega)
        | (rcases hx with rfl | rfl | rfl | rfl | rfl <;> simp <;> omega)

theorem indep_upd_dumpL (A : Alg T E) (O : Opt3 T E) (N n i j : Nat) (hi : 2 ≤ i) (hj : i < j) (hN : j < N) :
    IndepL N n [.calc (upd3L A O N n i)] (dumpL3 N j) := by
  unfold dumpL3
  intro o ho o' ho'
  simp only [List.mem_cons, List.not_mem_nil, or_false] at ho ho'
  subst ho
  have hc : ∀ f, o' ≠ .calc f := by rcases ho' with rfl | rfl | rfl | rfl <;> simp
  refine ⟨_, _, _, _, fp_updL A O N n i, FP.ops N n o' hc, fun x hx => ?_, fun x hx => ?_, fun x hx => ?_⟩
  all_goals
    rcases ho' with rfl | rfl | rfl | rfl <;> simp only [Op.rd, Op.wr, updLrd, updLwr, not_or, not_false_eq_true] at hx ⊢ <;>
      first
        | (subst hx; simp <;> omega)
        | (rcases hx with rfl | rfl <;> simp <;> omega)
        | (rcases hx with rfl | rfl | rfl | rfl | rfl <;> simp <;> omega)

/-! ### The program -/

theorem indepL_nil_right {N n : Nat} (a : List (Op T E)) : IndepL N n a [] := fun _ _ q hq => by simp at hq

theorem indepL_nil_left {N n : Nat} (a : List (Op T E)) : IndepL N n [] a := fun _ hp => by simp at hp

/-- The dump thread that runs at the beginning of step `i`. -/
def dpR (N lb i : Nat) : Option (List (Op T E)) := if lb < i then some (dumpR3 N (i - 1)) else none

def dpL (N rb i : Nat) : Option (List (Op T E)) := if i < rb then some (dumpL3 N (i + 1)) else none

section
variable (A : Alg T E) (O : Opt3 T E) (N : Nat)

theorem safe_bodyR {lb rb i : Nat} (h1 : lb ≤ i) (h2 : i + 2 ≤ rb) (h3 : rb < N) {c : List (Cmd T E)}
    (hc : Safe N (N - 1) none (dpR N lb (i + 1)) c) : Safe N (N - 1) none (dpR N lb i) (bodyR A O N lb rb i ++ c) := by
  unfold bodyR
  have hd : (dpR N lb (i + 1) : Option (List (Op T E))) = some (dumpR3 N i) := by unfold dpR; rw [if_pos (by omega)]; rfl
  rw [hd] at hc
  have e1 : IndepL N (N - 1) [.calc (upd3R A O N (N - 1) i)] (ol (dpR N lb i)) := by
    unfold dpR
    split
    · exact indep_upd_dumpR A O N _ i (i - 1) (by omega) (by omega)
    · exact indepL_nil_right _
  by_cases hl : i < rb - 2
  · simp only [if_pos hl]
    have e2 := indep_load_updR A O N (N - 1) lb i h1 (by omega)
    have e3 : IndepL N (N - 1) (loadR3 N lb (i + 1)) (ol (dpR N lb i) : List (Op T E)) := by
      unfold dpR
      split
      · exact indep_load_dumpR N _ lb i (i - 1) h1 (by omega) (by omega)
      · exact indepL_nil_right _
    have e4 : IndepL N (N - 1) (loadR3 N lb (i + 1)) (dumpR3 N i : List (Op T E)) := indep_load_dumpR N _ lb i i h1 (Nat.le_refl _) (by omega)
    refine ⟨rfl, e3, e2, e1, ?_⟩
    by_cases hi : lb < i
    · rw [if_pos hi, dpR, if_pos hi]
      exact ⟨by simp, rfl, e4, by simp, hc⟩
    · rw [if_neg hi, dpR, if_neg hi]
      exact ⟨rfl, e4, by simp, hc⟩
  · simp only [if_neg hl]
    refine ⟨indepL_nil_right _, e1, ?_⟩
    by_cases hi : lb < i
    · rw [if_pos hi, dpR, if_pos hi]
      exact ⟨by simp, rfl, indepL_nil_left _, hc⟩
    · rw [if_neg hi, dpR, if_neg hi]
      exact ⟨rfl, indepL_nil_left _, hc⟩

theorem safe_bodyL {lb rb i : Nat} (h1 : lb + 2 ≤ i) (h2 : i ≤ rb) (h3 : rb < N) {c : List (Cmd T E)}
    (hc : Safe N (N - 1) none (dpL N rb (i - 1)) c) : Safe N (N - 1) none (dpL N rb i) (bodyL A O N lb rb i ++ c) := by
  unfold bodyL
  have hd : (dpL N rb (i - 1) : Option (List (Op T E))) = some (dumpL3 N i) := by
    unfold dpL; rw [if_pos (by omega), show i - 1 + 1 = i by omega]
  rw [hd] at hc
  have e1 : IndepL N (N - 1) [.calc (upd3L A O N (N - 1) i)] (ol (dpL N rb i)) := by
    unfold dpL
    split
    · exact indep_upd_dumpL A O N _ i (i + 1) (by omega) (by omega) (by omega)
    · exact indepL_nil_right _
  by_cases hl : lb + 2 < i
  · simp only [if_pos hl]
    have e2 := indep_load_updL A O N (N - 1) rb i (by omega) h2
    have e3 : IndepL N (N - 1) (loadL3 N rb (i - 1)) (ol (dpL N rb i) : List (Op T E)) := by
      unfold dpL
      split
      · exact indep_load_dumpL N _ rb i (i + 1) (by omega) h2 (by omega)
      · exact indepL_nil_right _
    have e4 : IndepL N (N - 1) (loadL3 N rb (i - 1)) (dumpL3 N i : List (Op T E)) := indep_load_dumpL N _ rb i i (by omega) h2 (Nat.le_refl _)
    refine ⟨rfl, e3, e2, e1, ?_⟩
    by_cases hi : i < rb
    · rw [if_pos hi, dpL, if_pos hi]
      exact ⟨by simp, rfl, e4, by simp, hc⟩
    · rw [if_neg hi, dpL, if_neg hi]
      exact ⟨rfl, e4, by simp, hc⟩
  · simp only [if_neg hl]
    refine ⟨indepL_nil_right _, e1, ?_⟩
    by_cases hi : i < rb
    · rw [if_pos hi, dpL, if_pos hi]
      exact ⟨by simp, rfl, indepL_nil_left _, hc⟩
    · rw [if_neg hi, dpL, if_neg hi]
      exact ⟨rfl, indepL_nil_left _, hc⟩

theorem safe_loopR {lb rb : Nat} (h3 : rb < N) : ∀ (k i : Nat), lb ≤ i → i + k = rb - 1 → (k = 0 → lb < i) → 2 ≤ rb →
    Safe N (N - 1) none (dpR N lb i) ((List.range' i k).flatMap (bodyR A O N lb rb) ++ [.join .dp])
  | 0, i, h1, h2, h, _ => by
    rw [dpR, if_pos (h rfl)]
    exact ⟨by simp, rfl, rfl⟩
  | k + 1, i, h1, h2, _, hr => by
    rw [List.range'_succ, List.flatMap_cons, List.append_assoc]
    exact safe_bodyR A O N h1 (by omega) h3 (safe_loopR h3 k (i + 1) (by omega) (by omega) (fun _ => by omega) hr)

theorem range'_succ_reverse (a k : Nat) : (List.range' a (k + 1)).reverse = (a + k) :: (List.range' a k).reverse := by
  rw [List.range'_concat, List.reverse_append]
  simp

theorem safe_loopL {lb rb : Nat} (h3 : rb < N) : ∀ (k : Nat), lb + 2 + k ≤ rb + 1 → (k = 0 → lb + 1 < rb) →
    Safe N (N - 1) none (dpL N rb (lb + 1 + k)) ((List.range' (lb + 2) k).reverse.flatMap (bodyL A O N lb rb) ++ [.join .dp])
  | 0, h1, h => by
    rw [dpL, if_pos (h rfl)]
    exact ⟨by simp, rfl, rfl⟩
  | k + 1, h1, _ => by
    rw [range'_succ_reverse, List.flatMap_cons, List.append_assoc, show lb + 1 + (k + 1) = lb + 2 + k by omega]
    refine safe_bodyL A O N (by omega) (by omega) h3 ?_
    rw [show lb + 2 + k - 1 = lb + 1 + k by omega]
    exact safe_loopL h3 k (by omega) (fun _ => by omega)

theorem safe_nil (N n : Nat) : Safe N n none none ([] : List (Cmd T E)) := ⟨rfl, rfl⟩

theorem safe_op {N n : Nat} {o : Op T E} {c : List (Cmd T E)} (h : Safe N n none none c) : Safe N n none none (.op o :: c) :=
  ⟨indepL_nil_right _, indepL_nil_right _, h⟩

theorem safe_partR {lb rb : Nat} (h1 : lb + 2 ≤ rb) (h3 : rb < N) :
    Safe N (N - 1) none none ((loadR3 N lb lb).map .op ++ ((List.range' lb (rb - 1 - lb)).flatMap (bodyR A O N lb rb) ++ [.join .dp])) := by
  refine Safe.append ?_ (Safe.ops _)
  have := safe_loopR A O N (lb := lb) h3 (rb - 1 - lb) lb (Nat.le_refl _) (by omega) (fun h => by omega) (by omega)
  rwa [dpR, if_neg (by omega)] at this

theorem safe_partL {lb rb : Nat} (h1 : lb + 2 ≤ rb) (h3 : rb < N) :
    Safe N (N - 1) none none ((loadL3 N rb rb).map .op ++ ((List.range' (lb + 2) (rb - 1 - lb)).reverse.flatMap (bodyL A O N lb rb) ++ [.join .dp])) := by
  refine Safe.append ?_ (Safe.ops _)
  have := safe_loopL A O N (lb := lb) h3 (rb - 1 - lb) (by omega) (fun h => by omega)
  rwa [dpL, if_neg (by omega)] at this

theorem safe_sweep {lb rb : Nat} (h1 : lb + 2 ≤ rb) (h3 : rb < N) : Safe N (N - 1) none none (mpiSweep3 A O N lb rb) :=
  Safe.append (safe_op (safe_nil _ _)) (Safe.append (safe_partL A O N h1 h3) (safe_op (safe_partR A O N h1 h3)))

theorem safe_flatten {n : Nat} {p : List (Cmd T E)} (hp : Safe N n none none p) : ∀ k, Safe N n none none (List.replicate k p).flatten
  | 0 => ⟨rfl, rfl⟩
  | k + 1 => by rw [List.replicate_succ, List.flatten_cons]; exact Safe.append (safe_flatten hp k) hp

theorem safe_sweeps (C : Canon T) {lb rb : Nat} (h1 : lb + 2 ≤ rb) (h3 : rb < N) (k : Nat) : Safe N (N - 1) none none (mpiSweeps3 A O C N lb rb k) :=
  Safe.append (Safe.append (safe_op (safe_op (safe_op (safe_nil _ _)))) (safe_flatten N (safe_sweep A O N h1 h3) k)) (safe_op (safe_op (safe_nil _ _)))

/-! ### The sequential order -/

theorem inl_bodyR {lb rb i : Nat} (c : List (Cmd T E)) : inl none (bodyR A O N lb rb i ++ c) =
    .calc (upd3R A O N (N - 1) i) :: (dumpR3 N i ++ ((if i < rb - 2 then loadR3 N lb (i + 1) else []) ++ inl none c)) := by
  unfold bodyR
  by_cases hl : i < rb - 2 <;> by_cases hi : lb < i <;> simp [hl, hi, inl, ol]

theorem inl_bodyL {lb rb i : Nat} (c : List (Cmd T E)) : inl none (bodyL A O N lb rb i ++ c) =
    .calc (upd3L A O N (N - 1) i) :: (dumpL3 N i ++ ((if lb + 2 < i then loadL3 N rb (i - 1) else []) ++ inl none c)) := by
  unfold bodyL
  by_cases hl : lb + 2 < i <;> by_cases hi : i < rb <;> simp [hl, hi, inl, ol]

/-- The steps of the serial program, with environment vectors of `N-1` slots. -/
def stepR3' (lb i : Nat) : List (Op T E) := loadR3 N lb i ++ .calc (upd3R A O N (N - 1) i) :: dumpR3 N i

def stepL3' (rb i : Nat) : List (Op T E) := loadL3 N rb i ++ .calc (upd3L A O N (N - 1) i) :: dumpL3 N i

theorem inl_loopR {lb rb : Nat} : ∀ (k i : Nat), i + (k + 1) = rb - 1 →
    loadR3 N lb i ++ inl none ((List.range' i (k + 1)).flatMap (bodyR A O N lb rb) ++ [.join .dp]) = (List.range' i (k + 1)).flatMap (stepR3' A O N lb)
  | 0, i, h => by
    rw [List.range'_succ, List.flatMap_cons, List.flatMap_cons, List.append_assoc, inl_bodyR, if_neg (by omega)]
    simp [inl, stepR3']
  | k + 1, i, h => by
    rw [List.range'_succ, List.flatMap_cons, List.flatMap_cons, List.append_assoc, inl_bodyR, if_pos (by omega), inl_loopR k (i + 1) (by omega)]
    simp [stepR3']

theorem inl_loopL {lb rb : Nat} : ∀ (k : Nat),
    loadL3 N rb (lb + 2 + k) ++ inl none ((List.range' (lb + 2) (k + 1)).reverse.flatMap (bodyL A O N lb rb) ++ [.join .dp]) =
      (List.range' (lb + 2) (k + 1)).reverse.flatMap (stepL3' A O N rb)
  | 0 => by
    rw [range'_succ_reverse, List.flatMap_cons, List.flatMap_cons, List.append_assoc, inl_bodyL, if_neg (by omega)]
    simp [inl, stepL3']
  | k + 1 => by
    rw [range'_succ_reverse, List.flatMap_cons, List.flatMap_cons, List.append_assoc, inl_bodyL, if_pos (by omega),
      show lb + 2 + (k + 1) - 1 = lb + 2 + k by omega, inl_loopL k]
    simp [stepL3']

/-- The serial sweep with environment vectors of `N-1` slots. -/
def sweep3' (lb rb : Nat) : List (Op T E) :=
  .calc freshEnvs :: ((List.range' lb (rb - 1 - lb)).flatMap (stepR3' A O N lb) ++
    ((List.range' (lb + 2) (rb - 1 - lb)).reverse.flatMap (stepL3' A O N rb) ++ [.calc freshEnvs]))

theorem inl_sweep {lb rb : Nat} (h1 : lb + 2 ≤ rb) (h3 : rb < N) : inl none (mpiSweep3 A O N lb rb) = sweep3' A O N lb rb := by
  have eR : inl none ((loadR3 N lb lb).map .op ++ ((List.range' lb (rb - 1 - lb)).flatMap (bodyR A O N lb rb) ++ [.join .dp])) =
      (List.range' lb (rb - 1 - lb)).flatMap (stepR3' A O N lb) := by
    rw [inl_append (N := N) (n := N - 1) _ (Safe.ops _), inl_ops]
    have := inl_loopR A O N (lb := lb) (rb := rb) (rb - 2 - lb) lb (by omega)
    rwa [show rb - 2 - lb + 1 = rb - 1 - lb by omega] at this
  have eL : inl none ((loadL3 N rb rb).map .op ++ ((List.range' (lb + 2) (rb - 1 - lb)).reverse.flatMap (bodyL A O N lb rb) ++ [.join .dp])) =
      (List.range' (lb + 2) (rb - 1 - lb)).reverse.flatMap (stepL3' A O N rb) := by
    rw [inl_append (N := N) (n := N - 1) _ (Safe.ops _), inl_ops]
    have := inl_loopL A O N (lb := lb) (rb := rb) (rb - 2 - lb)
    rwa [show rb - 2 - lb + 1 = rb - 1 - lb by omega, show lb + 2 + (rb - 2 - lb) = rb by omega] at this
  unfold mpiSweep3 sweep3'
  rw [inl_append (N := N) (n := N - 1) _ (Safe.append (safe_partL A O N h1 h3) (safe_op (safe_partR A O N h1 h3))),
    inl_append (N := N) (n := N - 1) _ (safe_op (safe_partR A O N h1 h3)), eL]
  simp only [inl, eR, List.cons_append, List.append_assoc]

theorem inl_flatten {n : Nat} {p : List (Cmd T E)} (hp : Safe N n none none p) : ∀ k, inl none (List.replicate k p).flatten = (List.replicate k (inl none p)).flatten
  | 0 => rfl
  | k + 1 => by rw [List.replicate_succ, List.flatten_cons, inl_append _ hp, inl_flatten hp k, List.replicate_succ, List.flatten_cons]

/-- The serial sweeps with environment vectors of `N-1` slots. -/
def sweeps3' (C : Canon T) (lb rb k : Nat) : List (Op T E) :=
  .ldM lb :: .ldM (lb + 1) :: ((List.replicate k (sweep3' A O N lb rb)).flatten ++
    [.calc (canonC C lb), .dpM lb true, .dpM (lb + 1) true])

theorem inl_sweeps (C : Canon T) {lb rb : Nat} (h1 : lb + 2 ≤ rb) (h3 : rb < N) (k : Nat) :
    inl none (mpiSweeps3 A O C N lb rb k) = sweeps3' A O N C lb rb k := by
  unfold mpiSweeps3 sweeps3'
  simp only [List.cons_append, List.nil_append, inl]
  rw [inl_append (N := N) (n := N - 1) _ (safe_flatten N (safe_sweep A O N h1 h3) k), inl_flatten N (safe_sweep A O N h1 h3), inl_sweep A O N h1 h3]
  simp [inl]

/-! ### `N-1` or `N` slots -/

/-- The two operations do the same (with `N-1` and with `N` environment slots). -/
def Alike (N : Nat) (o o' : Op T E) : Prop := exec N (N - 1) o = exec N N o' ∧ ∀ d, tear d o = tear d o'

theorem alike_run : ∀ {a b : List (Op T E)}, List.Forall₂ (Alike N) a b → run N (N - 1) a = run N N b
  | _, _, .nil => rfl
  | _, _, .cons h t => by
    funext s
    simp only [run, h.1, alike_run t]

theorem alike_split : ∀ {done rest b : List (Op T E)}, List.Forall₂ (Alike N) (done ++ rest) b → ∃ done' rest', b = done' ++ rest' ∧
    List.Forall₂ (Alike N) done done' ∧ List.Forall₂ (Alike N) rest rest'
  | [], rest, b, h => ⟨[], b, rfl, .nil, h⟩
  | o :: done, rest, b, h => by
    cases h with
    | cons h t =>
      obtain ⟨done', rest', e1, e2, e3⟩ := alike_split t
      exact ⟨_ :: done', rest', by rw [e1]; rfl, .cons h e2, e3⟩

theorem alike_crash {a b : List (Op T E)} (h : List.Forall₂ (Alike N) a b) {s : Sys T E} {d : Dsk T E} (hc : Crash N (N - 1) a s d) : Crash N N b s d := by
  obtain ⟨done, rest, s1, rfl, h2, h3⟩ := hc
  obtain ⟨done', rest', e1, e2, e3⟩ := alike_split N h
  refine ⟨done', rest', s1, e1, by rw [← alike_run N e2]; exact h2, ?_⟩
  rcases h3 with h3 | ⟨o, os, rfl, h3⟩
  · exact .inl h3
  · cases e3 with
    | cons g t => exact .inr ⟨_, _, rfl, by rw [← g.2]; exact h3⟩

theorem alike_refl {o : Op T E} (h : exec N (N - 1) o = exec N N o) : Alike N o o := ⟨h, fun _ => rfl⟩

theorem alike_flatMap {α : Type} {f g : α → List (Op T E)} : ∀ {l : List α}, (∀ x ∈ l, List.Forall₂ (Alike N) (f x) (g x)) →
    List.Forall₂ (Alike N) (l.flatMap f) (l.flatMap g)
  | [], _ => .nil
  | x :: l, h => by
    rw [List.flatMap_cons, List.flatMap_cons]
    exact List.rel_append (h x List.mem_cons_self) (alike_flatMap fun y hy => h y (List.mem_cons_of_mem _ hy))

theorem alike_stepR {lb rb i : Nat} (h1 : lb ≤ i) (h2 : i + 2 ≤ rb) (h3 : rb < N) : List.Forall₂ (Alike N) (stepR3' A O N lb i) (stepR3 A O N lb i) := by
  have eu : exec N (N - 1) (.calc (upd3R A O N (N - 1) i)) = exec N N (.calc (upd3R A O N N i) : Op T E) := by
    have : upd3R A O N (N - 1) i = upd3R A O N N i := by
      funext s
      unfold upd3R
      rw [if_pos (by omega), if_pos (by omega)]
    rw [this]; rfl
  have eR : ∀ k, k < N - 1 → Alike N (.ldR k : Op T E) (.ldR k) := fun k hk => alike_refl N (by funext s; simp only [exec]; rw [if_pos hk, if_pos (by omega)])
  have eL : ∀ k, k < N - 1 → Alike N (.ldL k : Op T E) (.ldL k) := fun k hk => alike_refl N (by funext s; simp only [exec]; rw [if_pos hk, if_pos (by omega)])
  have efR : ∀ k, k < N - 1 → Alike N (.frR k : Op T E) (.frR k) := fun k hk => alike_refl N (by funext s; simp only [exec]; rw [if_pos hk, if_pos (by omega)])
  have efL : ∀ k, k < N - 1 → Alike N (.frL k : Op T E) (.frL k) := fun k hk => alike_refl N (by funext s; simp only [exec]; rw [if_pos hk, if_pos (by omega)])
  have edL : ∀ k, k < N - 1 → Alike N (.dpL k : Op T E) (.dpL k) := fun k hk => alike_refl N (by funext s; simp only [exec]; rw [if_pos hk, if_pos (by omega)])
  unfold stepR3' stepR3
  refine List.rel_append ?_ (.cons ⟨eu, fun _ => rfl⟩ (.cons (efL _ (by omega)) (.cons (efR _ (by omega)) (.cons (alike_refl N rfl) (.cons (edL _ (by omega)) .nil)))))
  unfold loadR3
  split
  · exact .cons (alike_refl N rfl) (.cons (eR _ (by omega)) (.cons (alike_refl N rfl) .nil))
  · exact .cons (alike_refl N rfl) (.cons (eR _ (by omega)) (.cons (alike_refl N rfl) (.cons (eL _ (by omega)) .nil)))

theorem alike_stepL {lb rb i : Nat} (h1 : lb + 2 ≤ i) (h2 : i ≤ rb) (h3 : rb < N) : List.Forall₂ (Alike N) (stepL3' A O N rb i) (stepL3 A O N rb i) := by
  have eu : exec N (N - 1) (.calc (upd3L A O N (N - 1) i)) = exec N N (.calc (upd3L A O N N i) : Op T E) := by
    have : upd3L A O N (N - 1) i = upd3L A O N N i := by
      funext s
      unfold upd3L
      rw [if_pos (by omega), if_pos (by omega)]
    rw [this]; rfl
  have eR : ∀ k, k < N - 1 → Alike N (.ldR k : Op T E) (.ldR k) := fun k hk => alike_refl N (by funext s; simp only [exec]; rw [if_pos hk, if_pos (by omega)])
  have eL : ∀ k, k < N - 1 → Alike N (.ldL k : Op T E) (.ldL k) := fun k hk => alike_refl N (by funext s; simp only [exec]; rw [if_pos hk, if_pos (by omega)])
  have efR : ∀ k, k < N - 1 → Alike N (.frR k : Op T E) (.frR k) := fun k hk => alike_refl N (by funext s; simp only [exec]; rw [if_pos hk, if_pos (by omega)])
  have efL : ∀ k, k < N - 1 → Alike N (.frL k : Op T E) (.frL k) := fun k hk => alike_refl N (by funext s; simp only [exec]; rw [if_pos hk, if_pos (by omega)])
  have edR : ∀ k, k < N - 1 → Alike N (.dpR k : Op T E) (.dpR k) := fun k hk => alike_refl N (by funext s; simp only [exec]; rw [if_pos hk, if_pos (by omega)])
  unfold stepL3' stepL3
  refine List.rel_append ?_ (.cons ⟨eu, fun _ => rfl⟩ (.cons (efL _ (by omega)) (.cons (efR _ (by omega)) (.cons (alike_refl N rfl) (.cons (edR _ (by omega)) .nil)))))
  unfold loadL3
  split
  · exact .cons (alike_refl N rfl) (.cons (eL _ (by omega)) (.cons (alike_refl N rfl) .nil))
  · exact .cons (alike_refl N rfl) (.cons (eR _ (by omega)) (.cons (alike_refl N rfl) .nil))

theorem alike_sweep {lb rb : Nat} (h3 : rb < N) : List.Forall₂ (Alike N) (sweep3' A O N lb rb) (sweep3 A O N lb rb) := by
  unfold sweep3' sweep3
  refine .cons (alike_refl N rfl) (List.rel_append (alike_flatMap N fun i hi => ?_) (List.rel_append (alike_flatMap N fun i hi => ?_) (.cons (alike_refl N rfl) .nil)))
  · rw [List.mem_range'_1] at hi
    exact alike_stepR A O N (rb := rb) hi.1 (by omega) h3
  · rw [List.mem_reverse, List.mem_range'_1] at hi
    exact alike_stepL A O N (lb := lb) hi.1 (by omega) h3

theorem alike_sweeps (C : Canon T) {lb rb : Nat} (h3 : rb < N) (k : Nat) : List.Forall₂ (Alike N) (sweeps3' A O N C lb rb k) (sweeps3 A O C N lb rb k) := by
  unfold sweeps3' sweeps3
  refine .cons (alike_refl N rfl) (.cons (alike_refl N rfl) (List.rel_append ?_ (.cons (alike_refl N rfl) (.cons (alike_refl N rfl) (.cons (alike_refl N rfl) .nil)))))
  induction k with
  | zero => exact .nil
  | succ k ih =>
    rw [List.replicate_succ, List.flatten_cons, List.replicate_succ, List.flatten_cons]
    exact List.rel_append (alike_sweep A O N h3) ih

/-! ### Which threads write files -/

theorem calm_ops (lb : Nat) : ∀ l : List (Op T E), Calm lb false (l.map .op)
  | [] => trivial
  | _ :: l => ⟨fun h => by simp at h, calm_ops lb l⟩

theorem calm_bodyR {lb rb i : Nat} (h1 : lb ≤ i) {c : List (Cmd T E)} (hc : Calm lb true c) (x : Bool) : Calm lb x (bodyR A O N lb rb i ++ c) := by
  have hq : ∀ o ∈ (loadR3 N lb (i + 1) : List (Op T E)), Quiet lb o := by
    unfold loadR3
    rw [if_pos (by omega)]
    simp [Quiet]
  unfold bodyR
  by_cases hl : i < rb - 2 <;> by_cases hi : lb < i <;> simp only [hl, hi, if_true, if_false, List.cons_append, List.nil_append]
  · exact ⟨hq, fun _ => trivial, hc⟩
  · exact ⟨hq, fun _ => trivial, hc⟩
  · exact ⟨fun _ => trivial, hc⟩
  · exact ⟨fun _ => trivial, hc⟩

theorem calm_bodyL {lb rb i : Nat} (h1 : lb + 2 ≤ i) (h2 : i ≤ rb) {c : List (Cmd T E)} (hc : Calm lb true c) (x : Bool) : Calm lb x (bodyL A O N lb rb i ++ c) := by
  have hq : lb + 2 < i → ∀ o ∈ (loadL3 N rb (i - 1) : List (Op T E)), Quiet lb o := by
    intro h
    unfold loadL3
    rw [if_pos (by omega)]
    simp [Quiet]
    omega
  unfold bodyL
  by_cases hl : lb + 2 < i <;> by_cases hi : i < rb <;> simp only [hl, hi, if_true, if_false, List.cons_append, List.nil_append]
  · exact ⟨hq hl, fun _ => trivial, hc⟩
  · exact ⟨hq hl, fun _ => trivial, hc⟩
  · exact ⟨fun _ => trivial, hc⟩
  · exact ⟨fun _ => trivial, hc⟩

theorem calm_loop {lb : Nat} {f : Nat → List (Cmd T E)} : ∀ {l : List Nat} (x : Bool), (∀ i ∈ l, ∀ x c, Calm lb true c → Calm lb x (f i ++ c)) →
    Calm lb x (l.flatMap f ++ [.join .dp])
  | [], _, _ => trivial
  | i :: l, x, h => by
    rw [List.flatMap_cons, List.append_assoc]
    exact h i List.mem_cons_self x _ (calm_loop true fun j hj => h j (List.mem_cons_of_mem _ hj))

theorem calm_sweep {lb rb : Nat} (h1 : lb + 2 ≤ rb) (h3 : rb < N) : Calm lb false (mpiSweep3 A O N lb rb) := by
  have cR : Calm lb false ((loadR3 N lb lb).map .op ++ ((List.range' lb (rb - 1 - lb)).flatMap (bodyR A O N lb rb) ++ [.join .dp])) :=
    Calm.append (N := N) (n := N) (dp := none) (calm_loop (lb := lb) false fun i hi x c hc =>
      calm_bodyR A O N (by rw [List.mem_range'_1] at hi; exact hi.1) hc x) (Safe.ops _) (calm_ops lb _)
  have cL : Calm lb false ((loadL3 N rb rb).map .op ++ ((List.range' (lb + 2) (rb - 1 - lb)).reverse.flatMap (bodyL A O N lb rb) ++ [.join .dp])) :=
    Calm.append (N := N) (n := N) (dp := none) (calm_loop (lb := lb) false fun i hi x c hc => by
      rw [List.mem_reverse, List.mem_range'_1] at hi
      exact calm_bodyL A O N hi.1 (by omega) hc x) (Safe.ops _) (calm_ops lb _)
  have s2 := safe_op (o := .calc freshEnvs) (safe_partR A O N h1 h3)
  exact Calm.append (dp := none) (calm_ops lb [.calc freshEnvs]) (Safe.append (safe_partL A O N h1 h3) s2)
    (Calm.append (dp := none) cL s2 ⟨fun h => by simp at h, cR⟩)

theorem calm_sweeps (C : Canon T) {lb rb : Nat} (h1 : lb + 2 ≤ rb) (h3 : rb < N) (k : Nat) : Calm lb false (mpiSweeps3 A O C N lb rb k) := by
  have s := safe_sweep A O N h1 h3
  refine ⟨fun h => by simp at h, fun h => by simp at h, Calm.append (dp := none) (calm_ops lb [.calc (canonC C lb), .dpM lb true, .dpM (lb + 1) true])
    (safe_flatten N s k) ?_⟩
  induction k with
  | zero => trivial
  | succ k ih =>
    rw [List.replicate_succ, List.flatten_cons]
    exact Calm.append (dp := none) ih s (calm_sweep A O N h1 h3)

end

end Verif.Disk
