import Verif.Mpi.DmrgPhases

/-!
# The whole run of the parallel DMRG executor

Every piece of the master's program, in every execution, does to memory and files what the piece of the serial program does.
-/
namespace Verif.Mpi
open Function Finset
open Verif.Disk (Alg CSys Op Err Dir Gauge Mem crun cexec use)

section
variable {M B Hs St Cb Cs O L SL VL : Type} [AddCommMonoid O] [AddCommMonoid St] {lact : Nat → SL → Act SL VL}
  {E : DEng M B Hs St Cb Cs O L SL} {W : Nat} {Q : (Nat → DProc M B Hs St Cb Cs O SL VL) → Prop}

/-- What is assumed of the numerical part: the overlap is additive, a Lanczos run ends within `max_iterations`, and the parallel decomposition ends with the
result of the serial one. -/
structure DEng.OK (E : DEng M B Hs St Cb Cs O L SL) (lact : Nat → SL → Act SL VL) (W : Nat) : Prop where
  ovl_zero : ∀ v, E.ovl v 0 = 0
  ovl_add : ∀ v x y, E.ovl v (x + y) = E.ovl v x + E.ovl v y
  stops : ∀ (H : St → St) t u, ∃ res, E.lzRun H E.iters (E.lz0 t u (H (E.start t u)) (E.ovl (E.start t u) (H (E.start t u)))) = some res
  svd : ∀ clk dir i t u res, LibOk lact W (E.svdIn t u res) E.svdWk fun s => E.svdOut clk dir i t u res s = E.svdVal clk dir i t u res

/-! ### One update -/

theorem wOvl_eq (hE : E.OK lact W) (ops : List (Nat × Cb × Cs)) (v : St) : wOvl E ops v = E.ovl v (wSub E ops v) := by
  unfold wOvl
  split
  · rfl
  · rename_i h
    have : ops = [] := by
      cases ops with
      | nil => rfl
      | cons a l => simp at h
    rw [this]
    exact (hE.ovl_zero v).symm

theorem wOvl_sum (hE : E.OK lact W) (ops : Nat → List (Nat × Cb × Cs)) (v : St) :
    ∑ r ∈ Icc 1 W, wOvl E (ops r) v = E.ovl v (∑ r ∈ Icc 1 W, wSub E (ops r) v) := by
  let φ : St →+ O := { toFun := E.ovl v, map_zero' := hE.ovl_zero v, map_add' := hE.ovl_add v }
  rw [Finset.sum_congr rfl fun r _ => wOvl_eq hE (ops r) v]
  exact (map_sum φ (fun r => wSub E (ops r) v) (Icc 1 W)).symm

/-- The workers together compute the whole product. -/
theorem wSub_sum {n : Nat} {did : Nat → List Nat} (hdid : ∑ r ∈ Icc 1 W, (did r : Multiset Nat) = (List.range n : List Nat)) (c : Nat → Cb × Cs) (v : St) :
    ∑ r ∈ Icc 1 W, wSub E ((did r).map fun j => (j, c j)) v = ((List.range n).map fun j => E.mul (c j).1 (c j).2 v).sum := by
  have h := sum_map_did (fun j => E.mul (c j).1 (c j).2 v) did W
  rw [hdid, Multiset.map_coe, Multiset.sum_coe] at h
  rw [h]
  refine Finset.sum_congr rfl fun r _ => ?_
  unfold wSub
  rw [List.map_map]
  rfl

/-- The Lanczos loop. -/
theorem good_lanczosD (hE : E.OK lact W) {n : Nat} {did : Nat → List Nat} (hdid : ∑ r ∈ Icc 1 W, (did r : Multiset Nat) = (List.range n : List Nat))
    (c : Nat → Cb × Cs) {H : St → St} (hH : ∀ v, H v = ((List.range n).map fun j => E.mul (c j).1 (c j).2 v).sum)
    {k : L → DProc M B Hs St Cb Cs O SL VL} {res : L}
    (hg : Good lact (wBodyD W E lact) W Q (k res) fun r => .head (.main ((did r).map fun j => (j, c j)))) :
    ∀ m l, E.lzRun H m l = some res →
      Good lact (wBodyD W E lact) W Q (mLanczosD W E k m l) fun r => .head (.lz ((did r).map fun j => (j, c j))) := by
  have hfin : Good lact (wBodyD W E lact) W Q (bcast W (.order .lanczosFinish) (k res)) fun r => .head (.lz ((did r).map fun j => (j, c j))) :=
    good_bcast (fun r _ _ => ⟨_, rfl, rfl⟩) hg
  intro m
  induction m with
  | zero =>
    intro l h
    unfold DEng.lzRun at h
    unfold mLanczosD
    cases hv : E.lzVec l with
    | none =>
      simp only [hv, Option.some.injEq] at h ⊢
      rw [h]; exact hfin
    | some v => simp only [hv, reduceCtorEq] at h
  | succ m ih =>
    intro l h
    unfold DEng.lzRun at h
    unfold mLanczosD
    cases hv : E.lzVec l with
    | none =>
      simp only [hv, Option.some.injEq] at h ⊢
      rw [h]; exact hfin
    | some v =>
      simp only [hv] at h ⊢
      unfold mStatic
      refine good_bcast (fun r _ _ => ⟨_, rfl, rfl⟩) (good_bcast (fun r _ _ => ⟨_, rfl, rfl⟩)
        (good_static (v := v) (ops := fun r => (did r).map fun j => (j, c j)) (k := fun x ov => mLanczosD W E k m (E.lzTake l x ov)) ?_))
      rw [wOvl_sum hE, wSub_sum hdid, ← hH]
      exact ih _ h

/-- `TwoSiteUpdate_` up to the new tensors. -/
theorem good_twoSite (hW : 1 ≤ W) (hE : E.OK lact W) {clk : Nat} {dir : Dir} {i l : Nat} (hl : leftSite dir i = l) {e f : List B} {t u : M}
    {k : M × M → DProc M B Hs St Cb Cs O SL VL}
    (hg : ∀ did : Nat → List Nat, ∑ r ∈ Icc 1 W, (did r : Multiset Nat) = (List.range (E.w (l + 1)) : List Nat) →
      Good lact (wBodyD W E lact) W Q (k (E.alg.opt clk dir i e f t u))
        fun r => .head (.main ((did r).map fun j => (j, E.mkB (E.bgrp l e j), E.mkS (E.sgrp (l + 1) f j)))))
    (ops : Nat → List (Nat × Cb × Cs)) :
    Good lact (wBodyD W E lact) W Q (mTwoSite W E lact clk dir i l e f t u k) fun r => .head (.main (ops r)) := by
  unfold mTwoSite mDynamic
  refine good_bcast (fun r _ _ => ⟨_, rfl, rfl⟩) (good_bcast (fun r _ _ => ⟨_, rfl, rfl⟩) (good_bcast (fun r _ _ => ⟨_, rfl, rfl⟩)
    (good_bcast (fun r _ _ => ⟨_, rfl, rfl⟩) (good_bcast (fun r _ _ => ⟨_, rfl, rfl⟩) (good_dyn hW fun did hdid => ?_)))))
  obtain ⟨res, hres⟩ := hE.stops (E.prod l e f) t u
  have hopt : E.alg.opt clk dir i e f t u = E.svdVal clk dir i t u res := by
    simp only [DEng.alg, hl, hres]
  refine good_lanczosD hE hdid (fun j => (E.mkB (E.bgrp l e j), E.mkS (E.sgrp (l + 1) f j))) (H := E.prod l e f) (fun v => rfl) (res := res) ?_ _ _ hres
  have hsvd := good_lib (body := wBodyD W E lact) (Q := Q) (M := k (E.svdVal clk dir i t u res)) (hE.svd clk dir i t u res)
    (cm := fun s => k (E.svdOut clk dir i t u res s))
    (cw := fun r => .head (DHead.main ((did r).map fun j => (j, E.mkB (E.bgrp l e j), E.mkS (E.sgrp (l + 1) f j)))))
    (fun s hs => by show k _ = _; rw [hs]) (fun r _ _ => ⟨_, _, rfl⟩) (by rw [← hopt]; exact hg did hdid)
  exact good_bcast (fun r _ _ => ⟨_, rfl, rfl⟩) hsvd

/-- From every state of the workers' tables. -/
def MainGood (lact : Nat → SL → Act SL VL) (E : DEng M B Hs St Cb Cs O L SL) (W : Nat) (Q : (Nat → DProc M B Hs St Cb Cs O SL VL) → Prop)
    (p : DProc M B Hs St Cb Cs O SL VL) : Prop :=
  ∀ ops : Nat → List (Nat × Cb × Cs), Good lact (wBodyD W E lact) W Q p fun r => .head (.main (ops r))

/-! ### The serial program piece by piece -/

omit [AddCommMonoid O] [AddCommMonoid St] in
theorem crun_append (w : Nat → Nat) (N : Nat) (a b : List (Op M (List B))) (s : CSys M B) :
    crun w N (a ++ b) s = crun w N a s >>= crun w N b := by
  induction a generalizing s with
  | nil => rfl
  | cons o a ih =>
    rw [List.cons_append]
    unfold crun
    cases cexec w N o s with
    | error e => rfl
    | ok s1 => exact ih s1

omit [AddCommMonoid O] [AddCommMonoid St] in
theorem crun_split {w : Nat → Nat} {N : Nat} {a b : List (Op M (List B))} {s s' : CSys M B} (h : crun w N (a ++ b) s = .ok s') :
    ∃ s1, crun w N a s = .ok s1 ∧ crun w N b s1 = .ok s' := by
  rw [crun_append] at h
  cases h1 : crun w N a s with
  | error e => rw [h1] at h; cases h
  | ok s1 => rw [h1] at h; exact ⟨s1, rfl, h⟩

omit [AddCommMonoid O] [AddCommMonoid St] in
theorem crun_calc {w : Nat → Nat} {N : Nat} {f : Mem M (List B) → Except Err (Mem M (List B))} {b : List (Op M (List B))} {s s' : CSys M B}
    (h : crun w N (.calc f :: b) s = .ok s') : ∃ m, f s.mem = .ok m ∧ crun w N b ⟨m, s.dsk⟩ = .ok s' := by
  change (do let s1 ← (do let m ← f s.mem; pure (⟨m, s.dsk⟩ : CSys M B)); crun w N b s1) = .ok s' at h
  cases h1 : f s.mem with
  | error e => rw [h1] at h; cases h
  | ok m => rw [h1] at h; exact ⟨m, rfl, h⟩

theorem mOps_ok {ops : List (Op M (List B))} {k : CSys M B → DProc M B Hs St Cb Cs O SL VL} {s s1 : CSys M B} (h : crun E.w E.N ops s = .ok s1) :
    mOps E ops k s = k s1 := by
  unfold mOps
  rw [h]

omit [AddCommMonoid O] [AddCommMonoid St] in
/-- Clearing a group of block operators earlier makes no difference after the dump. -/
theorem dumpR_same (w : Nat → Nat) (N i : Nat) (m : Mem M (List B)) (d : Disk.CDsk M B) :
    crun w N (Disk.dDumpR N i) ⟨m, d⟩ = crun w N (Disk.dDumpR N i) ⟨{ m with r := update m.r (N - (i + 2)) none }, d⟩ := by
  simp only [Disk.dDumpR, crun, cexec]
  by_cases h : i < N
  · rw [if_pos h, if_pos h]
    simp only [bind, Except.bind, update_idem]
  · rw [if_neg h, if_neg h]

omit [AddCommMonoid O] [AddCommMonoid St] in
theorem dumpL_same (w : Nat → Nat) (N i : Nat) (m : Mem M (List B)) (d : Disk.CDsk M B) :
    crun w N (Disk.dDumpL N i) ⟨m, d⟩ = crun w N (Disk.dDumpL N i) ⟨{ m with l := update m.l (i - 1) none }, d⟩ := by
  simp only [Disk.dDumpL, crun, cexec, update_idem]

/-- One iteration of the first loop. -/
theorem good_stepR (hW : 1 ≤ W) (hE : E.OK lact W) {lb i : Nat} {k : CSys M B → DProc M B Hs St Cb Cs O SL VL} {s s' : CSys M B}
    (h : crun E.w E.N (Disk.dStepR E.alg E.w E.N lb i) s = .ok s') (hk : MainGood lact E W Q (k s')) : MainGood lact E W Q (mStepR W E lact lb i k s) := by
  obtain ⟨s1, h1, h2⟩ := crun_split h
  obtain ⟨m, hm, h3⟩ := crun_calc h2
  unfold mStepR
  rw [mOps_ok h1]
  unfold Disk.dUpdR at hm
  split at hm
  case isFalse => cases hm
  rename_i hi
  unfold mUpdR
  cases he : s1.mem.l i with
  | none => rw [he] at hm; cases hm
  | some e =>
  cases hf : s1.mem.r (E.N - (i + 2)) with
  | none => rw [he, hf] at hm; cases hm
  | some f =>
  cases ht : s1.mem.m i with
  | none => rw [he, hf, ht] at hm; cases hm
  | some t =>
  cases hu : s1.mem.m (i + 1) with
  | none => rw [he, hf, ht, hu] at hm; cases hm
  | some u =>
  rw [he, hf, ht, hu] at hm
  simp only [use, bind, Except.bind, pure, Except.pure] at hm
  split at hm
  case isFalse => cases hm
  simp only [Except.ok.injEq] at hm
  intro ops
  refine good_twoSite hW hE rfl (fun did hdid => ?_) ops
  unfold mGrowOps
  refine good_bcast (fun r _ _ => ⟨_, rfl, rfl⟩) (good_bcast (fun r _ _ => ⟨_, rfl, rfl⟩)
    (good_growOps hdid (c := fun j => (E.mkB (E.bgrp i e j), E.mkS (E.sgrp (i + 1) f j))) (f := fun o => E.absL o.1 (E.alg.opt s1.mem.clk .r i e f t u).1) ?_))
  rw [mOps_ok (s1 := s')]
  · exact hk _
  · rw [dumpR_same, ← h3, ← hm]
    rfl

/-- One iteration of the second loop. -/
theorem good_stepL (hW : 1 ≤ W) (hE : E.OK lact W) {rb i : Nat} {k : CSys M B → DProc M B Hs St Cb Cs O SL VL} {s s' : CSys M B}
    (h : crun E.w E.N (Disk.dStepL E.alg E.w E.N rb i) s = .ok s') (hk : MainGood lact E W Q (k s')) : MainGood lact E W Q (mStepL W E lact rb i k s) := by
  obtain ⟨s1, h1, h2⟩ := crun_split h
  obtain ⟨m, hm, h3⟩ := crun_calc h2
  unfold mStepL
  rw [mOps_ok h1]
  unfold Disk.dUpdL at hm
  split at hm
  case isFalse => cases hm
  rename_i hi
  unfold mUpdL
  cases he : s1.mem.l (i - 1) with
  | none => rw [he] at hm; cases hm
  | some e =>
  cases hf : s1.mem.r (E.N - 1 - i) with
  | none => rw [he, hf] at hm; cases hm
  | some f =>
  cases ht : s1.mem.m (i - 1) with
  | none => rw [he, hf, ht] at hm; cases hm
  | some t =>
  cases hu : s1.mem.m i with
  | none => rw [he, hf, ht, hu] at hm; cases hm
  | some u =>
  rw [he, hf, ht, hu] at hm
  simp only [use, bind, Except.bind, pure, Except.pure] at hm
  split at hm
  case isFalse => cases hm
  simp only [Except.ok.injEq] at hm
  intro ops
  refine good_twoSite hW hE rfl (fun did hdid => ?_) ops
  have hi1 : i - 1 + 1 = i := by omega
  simp only [leftSite, hi1] at hdid ⊢
  unfold mGrowOps
  refine good_bcast (fun r _ _ => ⟨_, rfl, rfl⟩) (good_bcast (fun r _ _ => ⟨_, rfl, rfl⟩)
    (good_growOps hdid (c := fun j => (E.mkB (E.bgrp (i - 1) e j), E.mkS (E.sgrp i f j))) (f := fun o => E.absR o.2 (E.alg.opt s1.mem.clk .l i e f t u).2) ?_))
  rw [mOps_ok (s1 := s')]
  · exact hk _
  · rw [dumpL_same, ← h3, ← hm]
    rfl

/-- A loop without signals. -/
theorem good_half {step : Nat → List (Op M (List B))} {mstep : Nat → (CSys M B → DProc M B Hs St Cb Cs O SL VL) → CSys M B → DProc M B Hs St Cb Cs O SL VL}
    (hstep : ∀ i k s s', crun E.w E.N (step i) s = .ok s' → MainGood lact E W Q (k s') → MainGood lact E W Q (mstep i k s)) {ed : Nat → Nat} {sg : Nat → Disk.Flags}
    (hsg : ∀ p, (sg p).em = false) {k : CSys M B → DProc M B Hs St Cb Cs O SL VL} {s' : CSys M B} {b : Bool} (is : List Nat) (p : Nat) (s : CSys M B)
    (h : Disk.dHalf E.w E.N step ed sg p is s = .ok (s', b)) : b = false ∧ (MainGood lact E W Q (k s') → MainGood lact E W Q (mEach mstep is k s)) := by
  induction is generalizing p s with
  | nil =>
    simp only [Disk.dHalf, Except.ok.injEq, Prod.mk.injEq] at h
    exact ⟨h.2.symm, fun hk => by rw [← h.1] at hk; exact hk⟩
  | cons i is ih =>
    unfold Disk.dHalf at h
    cases h1 : crun E.w E.N (step i) s with
    | error e => rw [h1] at h; cases h
    | ok s1 =>
      rw [h1] at h
      simp only [bind, Except.bind, hsg] at h
      obtain ⟨hb, hg⟩ := ih (p + 1) s1 h
      exact ⟨hb, fun hk => hstep i _ s s1 h1 (hg hk)⟩

/-- A sweep. -/
theorem good_sweep (hW : 1 ≤ W) (hE : E.OK lact W) {lb rb : Nat} {sg : Nat → Disk.Flags} (hsg : ∀ p, (sg p).em = false)
    {k : CSys M B → DProc M B Hs St Cb Cs O SL VL} {s s' : CSys M B}
    (h : Disk.dSweep E.alg E.w E.N lb rb sg s = .ok s') (hk : MainGood lact E W Q (k s')) : MainGood lact E W Q (mSweep W E lact lb rb k s) := by
  unfold Disk.dSweep at h
  cases h1 : Disk.dHalf E.w E.N (Disk.dStepR E.alg E.w E.N lb) (fun i => i + 1) sg 0 (Disk.sitesR lb rb) s with
  | error e => rw [h1] at h; cases h
  | ok p =>
    obtain ⟨s1, b⟩ := p
    rw [h1] at h
    obtain ⟨rfl, hg⟩ := good_half (lact := lact) (Q := Q) (mstep := mStepR W E lact lb) (fun i k s s' h hk => good_stepR hW hE h hk) hsg
      (k := mEach (mStepL W E lact rb) (Disk.sitesL lb rb) k) _ _ _ h1
    refine hg ?_
    simp only [bind, Except.bind] at h
    cases h2 : Disk.dHalf E.w E.N (Disk.dStepL E.alg E.w E.N rb) (fun i => i - 1) sg (rb - 1 - lb) (Disk.sitesL lb rb) s1 with
    | error e => rw [h2] at h; cases h
    | ok p =>
      obtain ⟨s2, b⟩ := p
      rw [h2] at h
      simp only [pure, Except.pure] at h
      have h : s2 = s' := by simpa using h
      obtain ⟨-, hg⟩ := good_half (lact := lact) (Q := Q) (mstep := mStepL W E lact rb) (fun i k s s' h hk => good_stepL hW hE h hk) hsg (k := k) _ _ _ h2
      exact hg (by rw [h]; exact hk)

/-- All sweeps. -/
theorem good_sweeps (hW : 1 ≤ W) (hE : E.OK lact W) {lb rb : Nat} {sg : Disk.Sig} (hsg : ∀ q p, sg.look q p = ⟨false, false⟩)
    {k : CSys M B → DProc M B Hs St Cb Cs O SL VL} {s' : CSys M B} (hk : MainGood lact E W Q (k s')) (n q : Nat) (s : CSys M B)
    (h : Disk.dSweeps E.alg E.w E.N lb rb sg n q s = .ok s') : MainGood lact E W Q (mSweeps W E lact lb rb n k s) := by
  induction n generalizing q s with
  | zero =>
    simp only [Disk.dSweeps, Except.ok.injEq] at h
    rw [← h] at hk
    exact hk
  | succ n ih =>
    unfold Disk.dSweeps at h
    cases h1 : Disk.dSweep E.alg E.w E.N lb rb (sg.look q) s with
    | error e => rw [h1] at h; cases h
    | ok s1 =>
      rw [h1] at h
      simp only [bind, Except.bind, hsg, Bool.or_self] at h
      exact good_sweep hW hE (fun p => by rw [hsg]) h1 (ih _ _ h)

/-! ### Initialisation -/

/-- One iteration of the loop of `InitBlockOps_`. -/
theorem good_initStep (hW : 1 ≤ W) {i : Nat} {k : CSys M B → DProc M B Hs St Cb Cs O SL VL} {s s' : CSys M B}
    (h : crun E.w E.N (Disk.initStep E.alg E.N i) s = .ok s') (hk : Good lact (wBodyD W E lact) W Q (k s') fun _ => .head .init) :
    Good lact (wBodyD W E lact) W Q (mInitStep W E i k s) fun _ => .head .init := by
  obtain ⟨s1, h1, h2⟩ := crun_split h
  obtain ⟨m, hm, h3⟩ := crun_calc h2
  unfold mInitStep
  rw [mOps_ok h1]
  unfold Disk.pushR at hm
  cases he : s1.mem.reg with
  | none => rw [he] at hm; cases hm
  | some e =>
  cases ht : s1.mem.m (E.N - i) with
  | none => rw [he, ht] at hm; cases hm
  | some t =>
  rw [he, ht] at hm
  simp only [use, bind, Except.bind, pure, Except.pure, Except.ok.injEq] at hm
  refine good_initGrow hW ?_
  rw [mOps_ok (s1 := s')]
  · exact hk
  · rw [← h3, ← hm]
    rfl

theorem good_initLoop (hW : 1 ≤ W) {k : CSys M B → DProc M B Hs St Cb Cs O SL VL} {s' : CSys M B} (hk : Good lact (wBodyD W E lact) W Q (k s') fun _ => .head .init)
    (is : List Nat) (s : CSys M B) (h : crun E.w E.N (is.flatMap (Disk.initStep E.alg E.N)) s = .ok s') :
    Good lact (wBodyD W E lact) W Q (mEach (mInitStep W E) is k s) fun _ => .head .init := by
  induction is generalizing s with
  | nil =>
    simp only [List.flatMap_nil, crun, Except.ok.injEq] at h
    rw [← h] at hk
    exact hk
  | cons i is ih =>
    rw [List.flatMap_cons] at h
    obtain ⟨s1, h1, h2⟩ := crun_split h
    exact good_initStep hW h1 (ih s1 h2)

/-- `DMRGInit_`. -/
theorem good_init (hW : 1 ≤ W) {G : Gauge M} {bl br : Nat → Bool} {k : CSys M B → DProc M B Hs St Cb Cs O SL VL} {s s' : CSys M B}
    (h : crun E.w E.N (Disk.dmrgInit E.alg G bl br E.w E.N s.dsk) s = .ok s') (hk : MainGood lact E W Q (k s')) :
    Good lact (wBodyD W E lact) W Q (mInit W E G bl br k s) fun _ => .head .init := by
  obtain ⟨s1, h1, h2⟩ := crun_split h
  obtain ⟨s2, h3, h4⟩ := crun_split h2
  have hrest : Good lact (wBodyD W E lact) W Q (bcast W (.order .initGrowEnvFinish) (mOps E (Disk.boundOps E.alg E.N (Disk.lbOf bl E.N) (Disk.rbOf br E.N)) k s2))
      fun _ => .head .init :=
    good_bcast (fun r _ _ => ⟨_, rfl, rfl⟩) (by rw [mOps_ok h4]; exact hk fun _ => [])
  unfold mInit
  rw [mOps_ok h1]
  by_cases hn : Disk.needOps E.w E.N (Disk.lbOf bl E.N) (Disk.rbOf br E.N) s.dsk = true
  · rw [if_pos hn] at h3 ⊢
    obtain ⟨s3, h5, h6⟩ := crun_split (a := [.ldM (E.N - 1), .calc (Disk.startR E.alg E.N), .wrR 0]) h3
    rw [mOps_ok h5]
    exact good_initLoop hW hrest _ _ h6
  · rw [if_neg hn] at h3 ⊢
    simp only [crun, Except.ok.injEq] at h3
    rw [h3]
    exact hrest

/-- The whole program. -/
theorem good_execute (hW : 1 ≤ W) (hE : E.OK lact W) {G P : Gauge M} {bl br : Nat → Bool} {n : Nat} {sg : Disk.Sig}
    (hsg : ∀ q p, sg.look q p = ⟨false, false⟩) (hfin : sg.fin.em = false) {s s' : CSys M B}
    (h : Disk.dmrg E.alg E.w E.N G P bl br n sg s = .ok s')
    (hQ : Q (ranks W (.halt (some s')) fun _ => .halt none)) :
    Good lact (wBodyD W E lact) W Q (mExecute W E lact G P bl br n s) fun _ => .head .start := by
  unfold Disk.dmrg at h
  cases h1 : crun E.w E.N (Disk.dmrgInit E.alg G bl br E.w E.N s.dsk) s with
  | error e => rw [h1] at h; cases h
  | ok s1 =>
    rw [h1] at h
    simp only [bind, Except.bind] at h
    unfold Disk.dMain at h
    cases h2 : crun E.w E.N [.ldM (Disk.lbOf bl E.N + 1)] s1 with
    | error e => rw [h2] at h; cases h
    | ok s2 =>
      rw [h2] at h
      simp only [bind, Except.bind] at h
      cases h3 : Disk.dSweeps E.alg E.w E.N (Disk.lbOf bl E.N) (Disk.rbOf br E.N) sg n 0 s2 with
      | error e => rw [h3] at h; cases h
      | ok s3 =>
        rw [h3] at h
        simp only [hfin] at h
        unfold mExecute
        refine good_bcast (fun r _ _ => ⟨_, rfl, rfl⟩) (good_init hW h1 ?_)
        rw [mOps_ok h2]
        refine good_sweeps hW hE hsg ?_ n 0 s2 h3
        rw [mOps_ok (by simpa using h)]
        intro ops
        exact good_bcast (w' := fun _ => .halt none) (fun r _ _ => ⟨_, rfl, rfl⟩) (good_end rfl (fun _ _ _ => rfl) hQ)

end
end Verif.Mpi
