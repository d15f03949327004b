import Verif.Disk.Sim
import Verif.Props.Noised
/-
Property C55: restart of the programs that begin with `FiniteVMPSInit` (the MPI two-site program and the noised one).
-/
namespace Verif.Props
open Verif.Disk

variable {T E : Type}

/-- Files that a program over the range `lb … rb` or a smaller one may find: the complete tensors are those of some
MPS to which the complete right environments of the range belong, or a tensor that is loaded at once is not
complete. -/
def Resumable (A : Alg T E) (N lb rb : Nat) (d : Dsk T E) : Prop :=
  (∃ ψ : Nat → T, (∀ j t, j < N → d.m j = .whole t → t = ψ j) ∧
    ∀ k e, N < k + rb → k + lb + 2 ≤ N → d.r k = .whole e → e = A.renv N ψ k) ∨
  ((∃ _ : T, True) ∧ ∃ c, c ≤ lb + 1 ∧ ∀ t, d.m c ≠ .whole t)

theorem resumable_mid {A : Alg T E} {N lb rb b : Nat} (h1 : lb + 2 ≤ rb) (h2 : rb < N) (hb : b ≤ rb + 1) {ψ : Nat → T} {d : Dsk T E}
    (right : ∀ j, b ≤ j → j < N → d.m j = .whole (ψ j))
    (tr : ∀ t, d.m (N - 1) = .whole t → A.trivR t = A.trivR (ψ (N - 1)))
    (r : ∀ k e, N ≤ k + 1 + rb → k + lb + 2 ≤ N → d.r k = .whole e → k + b ≤ N ∧ e = A.renv N ψ k) : Resumable A N lb rb d := by
  classical
  obtain ⟨φ, hφ⟩ : ∃ φ : Nat → T, φ = fun j => match d.m j with | .whole t => t | _ => ψ j := ⟨_, rfl⟩
  have e1 : ∀ j t, d.m j = .whole t → t = φ j := fun j t h => by rw [hφ]; simp [h]
  refine Or.inl ⟨φ, fun j t _ h => e1 j t h, fun k e g1 g2 g3 => ?_⟩
  obtain ⟨g4, rfl⟩ := r k e (by omega) g2 g3
  refine renv_congr A ?_ k (fun j hj hj' => ?_) (by omega)
  · cases hm : d.m (N - 1) with
    | whole t => rw [← e1 _ t hm, tr t hm]
    | gone => rw [hφ]; simp [hm]
    | junk => rw [hφ]; simp [hm]
  · exact e1 _ _ (right j (by omega) hj')

theorem resumable_after {A : Alg T E} {N lb rb : Nat} (h1 : lb + 2 ≤ rb) (h2 : rb < N) {d : Dsk T E} (h : After A N lb rb d) :
    Resumable A N lb rb d := by
  rcases h with ⟨ψ, b, hb, hb', h⟩ | ⟨ψ, h, h'⟩ | ⟨h, ψ, -⟩
  · exact resumable_mid h1 h2 hb' h.right h.tr h.r
  · refine Or.inl ⟨ψ, fun j t hj ht => ?_, fun k e g1 g2 g3 => ?_⟩
    · rw [h j hj] at ht; injection ht with ht; exact ht.symm
    · rw [h'.r k (by omega) g2] at g3; injection g3 with g3; exact g3.symm
  · exact Or.inr ⟨⟨ψ 0, trivial⟩, lb + 1, Nat.le_refl _, fun t => by rw [h]; simp⟩

theorem resumable_afterW {A : Alg T E} {N lb rb : Nat} (h1 : lb + 2 ≤ rb) (h2 : rb < N) (t : T) {d : Dsk T E}
    (h : AfterW A (geo3 N lb rb) d) : Resumable A N lb rb d := by
  rcases h with ⟨ψ, b, hb, hb', h⟩ | ⟨ψ, h, h'⟩ | ⟨c, -, hc, h⟩
  · exact resumable_mid h1 h2 hb' h.right h.tr h.r
  · refine Or.inl ⟨ψ, fun j t hj ht => ?_, fun k e g1 g2 g3 => ?_⟩
    · rw [h j hj] at ht; injection ht with ht; exact ht.symm
    · rw [h'.of3.r k (by omega) g2] at g3; injection g3 with g3; exact g3.symm
  · exact Or.inr ⟨⟨t, trivial⟩, c, by simp only [geo3] at hc; omega, fun t => by rw [h]; simp⟩

/-! ### Which sites are loaded first -/

theorem midL_pos {N : Nat} (hN : 3 ≤ N) : midL N ≠ 0 := by unfold midL; split <;> omega

theorem checkL_reads {G : Gauge T} {lb j : Nat} (h : j ≤ lb + 1) : Reads j (checkL G (lb + 1) lb : List (Op T E)) := by
  have : (checkL G (lb + 1) lb : List (Op T E)) = (.ldM 0 :: (List.range (lb + 1)).flatMap (fun i => [.ldM (i + 1), .calc (canL G i)])) ++
      (List.range (lb + 2)).map (fun i => .dpM i true) := rfl
  rw [this]
  refine Reads.append (Reads.mem (fun o ho rel => ?_) ?_)
  · simp only [List.mem_cons, List.mem_flatMap, List.mem_range, List.not_mem_nil, or_false] at ho
    rcases ho with rfl | ⟨i, -, rfl | rfl⟩ <;> simp
  · rcases Nat.eq_zero_or_pos j with rfl | hj
    · simp
    · refine List.mem_cons_of_mem _ (List.mem_flatMap.mpr ⟨j - 1, List.mem_range.mpr (by omega), ?_⟩)
      rw [show j - 1 + 1 = j by omega]; simp

theorem checkL_noDump {G : Gauge T} {it lb j : Nat} (h : lb + 1 < j) :
    ∀ o, o ∈ (checkL G it lb : List (Op T E)) → ∀ rel, o ≠ .dpM j rel := by
  intro o ho rel
  simp only [checkL, List.mem_cons, List.mem_append, List.mem_flatMap, List.mem_map, List.mem_range, List.not_mem_nil, or_false] at ho
  rcases ho with rfl | ⟨i, -, rfl | rfl⟩ | ⟨i, hi, rfl⟩ <;> simp
  omega

theorem checkR_reads {G : Gauge T} {N rb j : Nat} (hr : 1 ≤ rb) (hN : rb < N) (h : rb ≤ j + 1) (hj : j < N) :
    Reads j (checkR G N rb : List (Op T E)) := by
  have : (checkR G N rb : List (Op T E)) = (.ldM (N - 1) :: (List.range' rb (N - rb)).reverse.flatMap
      (fun i => [.ldM (i - 1), .calc (canR G i)])) ++ (List.range' (rb - 1) (N + 1 - rb)).reverse.map (fun i => .dpM i true) := by
    unfold checkR; rw [if_neg (by omega), if_neg (by omega)]; rfl
  rw [this]
  refine Reads.append (Reads.mem (fun o ho rel => ?_) ?_)
  · simp only [List.mem_cons, List.mem_flatMap, List.mem_reverse, List.not_mem_nil, or_false] at ho
    rcases ho with rfl | ⟨i, -, rfl | rfl⟩ <;> simp
  · by_cases h' : j = N - 1
    · subst h'; simp
    · refine List.mem_cons_of_mem _ (List.mem_flatMap.mpr ⟨j + 1, List.mem_reverse.mpr (List.mem_range'_1.mpr (by omega)), ?_⟩)
      simp

theorem checkR_noDump {G : Gauge T} {N rb j : Nat} (h : j + 1 < rb) :
    ∀ o, o ∈ (checkR G N rb : List (Op T E)) → ∀ rel, o ≠ .dpM j rel := by
  intro o ho rel
  simp only [checkR, List.mem_cons, List.mem_append, List.mem_flatMap, List.mem_map, List.mem_reverse, List.mem_range'_1,
    List.not_mem_nil, or_false] at ho
  rcases ho with rfl | ⟨i, -, rfl | rfl⟩ | ⟨i, hi, rfl⟩ <;> simp
  omega

theorem initEnvs_noDump {A : Alg T E} {N usn j : Nat} :
    ∀ o, o ∈ (initEnvs A N usn : List (Op T E)) → ∀ rel, o ≠ .dpM j rel := by
  intro o ho rel
  simp only [initEnvs, initStep, List.mem_cons, List.mem_append, List.mem_flatMap, List.not_mem_nil, or_false] at ho
  rcases ho with rfl | rfl | rfl | ⟨i, -, ho | rfl | rfl | rfl⟩ | rfl | rfl | rfl | rfl | rfl <;> try simp
  split at ho
  · simp only [List.mem_cons, List.not_mem_nil, or_false] at ho; subst ho; simp
  · exact absurd ho (by simp)

theorem updateBoundary_noDump {A : Alg T E} {N lb rb j : Nat} :
    ∀ o, o ∈ (updateBoundary A N lb rb : List (Op T E)) → ∀ rel, o ≠ .dpM j rel := by
  intro o ho rel
  simp only [updateBoundary, boundR, boundL, List.mem_cons, List.mem_append, List.mem_flatMap, List.not_mem_nil, or_false] at ho
  rcases ho with rfl | rfl | rfl | rfl | ⟨i, -, rfl | rfl | rfl⟩ | rfl | rfl | rfl | rfl | rfl | rfl | rfl | rfl |
    ⟨i, -, rfl | rfl | rfl⟩ | rfl | rfl <;> simp

/-- The initialisation and a program that loads the sites between the boundaries before it writes them. -/
theorem init_reads {A : Alg T E} {G : Gauge T} (bl br : Nat → Bool) {N : Nat} (hN : 3 ≤ N) (d : Dsk T E) {ops : List (Op T E)}
    (h : ∀ j, lbOf bl N + 2 ≤ j → j + 1 < rbOf br N → Reads j ops) {j : Nat} (hj : j < N) :
    Reads j (vmpsInit A G bl br N d ++ ops) := by
  obtain ⟨b1, b2⟩ := bounds_ok bl br hN
  unfold vmpsInit checkBoundary
  rw [if_neg (midL_pos hN)]
  rw [show ∀ (a b c : List (Op T E)), (.calc (assertEmpty N) :: (a ++ (b ++ [.calc (assertEmpty N)])) ++ c) ++ ops =
    [.calc (assertEmpty N)] ++ (a ++ (b ++ ([.calc (assertEmpty N)] ++ (c ++ ops)))) from fun a b c => by simp]
  refine Reads.prepend (fun o ho => by simp at ho; subst ho; simp) ?_
  by_cases h1 : j ≤ lbOf bl N + 1
  · exact Reads.append (checkL_reads h1)
  refine Reads.prepend (checkL_noDump (by omega)) ?_
  by_cases h2 : rbOf br N ≤ j + 1
  · exact Reads.append (checkR_reads (by omega) b2 h2 hj)
  refine Reads.prepend (checkR_noDump (by omega)) ?_
  refine Reads.prepend (fun o ho => by simp at ho; subst ho; simp) ?_
  refine Reads.prepend (fun o ho rel => ?_) (h j (by omega) (by omega))
  rcases List.mem_append.mp ho with ho | ho
  · split at ho
    · exact initEnvs_noDump o ho rel
    · exact absurd ho (by simp)
  · exact updateBoundary_noDump o ho rel

theorem sweeps2_reads {A : Alg T E} {N lb rb k j : Nat} (hk : 1 ≤ k) (h1 : lb + 2 ≤ j) (h2 : j + 1 < rb) :
    Reads j (sweeps2 A N lb rb k) := by
  obtain ⟨k, rfl⟩ : ∃ k', k = k' + 1 := ⟨k - 1, by omega⟩
  have hs : sitesR lb rb = List.range' lb (j - 1 - lb) ++ (j - 1) :: List.range' j (rb - 1 - j) := by
    unfold sitesR
    rw [show rb - 1 - lb = (j - 1 - lb) + (rb - 1 - j + 1) by omega, ← List.range'_append_1, List.range'_succ,
      show lb + (j - 1 - lb) = j - 1 by omega, show j - 1 + 1 = j by omega]
  unfold sweeps2 sweep2
  rw [List.replicate_succ, List.flatten_cons, hs, List.flatMap_append, List.flatMap_cons]
  rw [show ∀ (a b c d e : List (Op T E)), .ldM (lb + 1) :: ((.calc freshEnvs :: (((a ++ (b ++ c)) ++ d)) ++ e) ++ [.dpM (lb + 1) true]) =
    ([.ldM (lb + 1), .calc freshEnvs] ++ a) ++ (b ++ (c ++ (d ++ (e ++ [.dpM (lb + 1) true])))) from fun a b c d e => by simp]
  refine Reads.prepend (fun o ho rel => ?_) (Reads.append ?_)
  · simp only [List.mem_append, List.mem_cons, List.mem_flatMap, List.mem_range'_1, List.not_mem_nil, or_false] at ho
    rcases ho with (rfl | rfl) | ⟨i, hi, ho⟩
    · simp
    · simp
    · unfold stepR2 loadR2 dumpR2 at ho
      split at ho <;>
        simp only [List.cons_append, List.nil_append, List.mem_cons, List.not_mem_nil, or_false] at ho <;>
        rcases ho with rfl | rfl | rfl | rfl | rfl | rfl | rfl | rfl | rfl <;> simp <;> omega
  · have : stepR2 A N lb (j - 1) = .ldM j :: ([.ldR (N - (j - 1 + 2)), .rmR (N - (j - 1 + 2))] ++
        .calc (upd2R A N (N - 1) (j - 1)) :: dumpR2 N (j - 1)) := by
      unfold stepR2 loadR2; rw [if_neg (by omega)]; simp [show j - 1 + 1 = j by omega]
    rw [this]
    exact ⟨[], _, rfl, fun o ho => absurd ho (by simp)⟩

theorem sweeps3_reads {A : Alg T E} {O : Opt3 T E} {C : Canon T} {N lb rb k j : Nat} (hk : 1 ≤ k) (h1 : lb + 2 ≤ j) (h2 : j + 1 < rb) :
    Reads j (sweeps3 A O C N lb rb k) := by
  obtain ⟨k, rfl⟩ : ∃ k', k = k' + 1 := ⟨k - 1, by omega⟩
  have hs : List.range' lb (rb - 1 - lb) = List.range' lb (j - 2 - lb) ++ (j - 2) :: List.range' (j - 1) (rb - j) := by
    rw [show rb - 1 - lb = (j - 2 - lb) + (rb - j + 1) by omega, ← List.range'_append_1, List.range'_succ,
      show lb + (j - 2 - lb) = j - 2 by omega, show j - 2 + 1 = j - 1 by omega]
  unfold sweeps3 sweep3
  rw [List.replicate_succ, List.flatten_cons, hs, List.flatMap_append, List.flatMap_cons]
  rw [show ∀ (a b c d e f : List (Op T E)), .ldM lb :: .ldM (lb + 1) :: ((.calc freshEnvs :: (((a ++ (b ++ c)) ++ d)) ++ e) ++ f) =
    ([.ldM lb, .ldM (lb + 1), .calc freshEnvs] ++ a) ++ (b ++ (c ++ (d ++ (e ++ f)))) from fun a b c d e f => by simp]
  refine Reads.prepend (fun o ho rel => ?_) (Reads.append ?_)
  · simp only [List.mem_append, List.mem_cons, List.mem_flatMap, List.mem_range'_1, List.not_mem_nil, or_false] at ho
    rcases ho with (rfl | rfl | rfl) | ⟨i, hi, ho⟩
    · simp
    · simp
    · simp
    · unfold stepR3 loadR3 dumpR3 at ho
      split at ho <;>
        simp only [List.cons_append, List.nil_append, List.mem_cons, List.not_mem_nil, or_false] at ho <;>
        rcases ho with rfl | rfl | rfl | rfl | rfl | rfl | rfl | rfl | rfl <;> simp <;> omega
  · have : ∃ r, stepR3 A O N lb (j - 2) = .ldM j :: r := by
      unfold stepR3 loadR3
      split
      · exact ⟨_, by rw [show j - 2 + 2 = j by omega]; rfl⟩
      · exact ⟨_, by rw [show j - 2 + 2 = j by omega]; rfl⟩
    obtain ⟨r, hr⟩ := this
    rw [hr]
    exact ⟨[], _, rfl, fun o ho => absurd ho (by simp)⟩

/-! ### Restart -/

/-- A program that begins with `FiniteVMPSInit` on resumable files: it stops at a load, or all tensors are complete
and it does what it does on consistent files. -/
theorem resume {A : Alg T E} {G : Gauge T} (bl br : Nat → Bool) {N n : Nat} (hN : 3 ≤ N) {lb rb : Nat}
    (h1 : lb ≤ lbOf bl N) (h2 : rbOf br N ≤ rb) {d : Dsk T E} {mem : Mem T E} {clk : Nat} (h0 : NoTensors mem clk)
    (h : Resumable A N lb rb d) {ops : List (Op T E)} (hr : ∀ j, lbOf bl N + 2 ≤ j → j + 1 < rbOf br N → Reads j ops)
    {P : (Nat → T) → (Nat → T) → Prop}
    (hops : ∀ ψ d'', OnDisk N ψ d'' → (∀ k, d''.r k ≠ .junk) → Reusable A N (lbOf bl N) (rbOf br N) ψ d'' →
      ∃ s' φ, run N n (vmpsInit A G bl br N d'' ++ ops) ⟨mem, d''⟩ = .ok s' ∧ P ψ φ ∧ OnDisk N φ s'.dsk) :
    LoadFails (run N n (vmpsInit A G bl br N d ++ ops) ⟨mem, d⟩) ∨
      ∃ ψ' φ s', OnDisk N ψ' d ∧ run N n (vmpsInit A G bl br N d ++ ops) ⟨mem, d⟩ = .ok s' ∧ P ψ' φ ∧ OnDisk N φ s'.dsk := by
  rcases h with ⟨ψ, e1, e2⟩ | ⟨⟨t0, -⟩, c, hc, hn⟩
  · obtain ⟨d'', hd⟩ : ∃ d'' : Dsk T E, d'' = ⟨fun j => if j < N then .whole (ψ j) else d.m j, d.l,
      fun k => match d.r k with | .junk => .whole (A.renv N ψ k) | x => x⟩ := ⟨_, rfl⟩
    have hle : d.Le d'' := by
      subst hd
      refine ⟨fun j => ?_, fun j => Or.inl rfl, fun j => ?_⟩
      · by_cases hj : j < N
        · simp only [if_pos hj]
          cases hm : d.m j with
          | whole t => exact Or.inl (by rw [e1 j t hj hm])
          | gone => exact Or.inr (by simp)
          | junk => exact Or.inr (by simp)
        · simp only [if_neg hj]; exact Or.inl rfl
      · simp only
        cases hm : d.r j with
        | whole t => exact Or.inl rfl
        | gone => exact Or.inl rfl
        | junk => exact Or.inr (by simp)
    have hon : OnDisk N ψ d'' := fun j hj => by subst hd; simp only [if_pos hj]
    have hjk : ∀ k, d''.r k ≠ .junk := fun k => by
      subst hd
      simp only
      cases hm : d.r k <;> simp
    have hre : Reusable A N (lbOf bl N) (rbOf br N) ψ d'' := fun k e g1 g2 g3 => by
      subst hd
      simp only at g3
      cases hm : d.r k with
      | whole x =>
        rw [hm] at g3
        injection g3 with g3
        rw [← g3]
        exact e2 k x (by omega) (by omega) hm
      | gone => rw [hm] at g3; exact absurd g3 (by simp)
      | junk => rw [hm] at g3; injection g3 with g3; exact g3.symm
    have hneed : vmpsInit A G bl br N d'' = vmpsInit A G bl br N d := by
      have : needEnvs N (lbOf bl N) (rbOf br N) d'' = needEnvs N (lbOf bl N) (rbOf br N) d := by
        unfold needEnvs
        congr 2
        funext k
        subst hd
        simp only
        cases d.r k <;> rfl
      unfold vmpsInit
      rw [this]
    obtain ⟨s', φ, hrun, hP, hφ⟩ := hops ψ d'' hon hjk hre
    rw [hneed] at hrun
    rcases run_sim (show Sim ⟨mem, d⟩ ⟨mem, d''⟩ from ⟨rfl, hle⟩) hrun with hs | ⟨t, ht, -, hm⟩
    · exact Or.inl hs
    · right
      have hwh : OnDisk N ψ d := fun j hj => by
        obtain ⟨v, hv⟩ := (init_reads bl br hN d hr hj).whole ht
        rw [hv, e1 j v hj hv]
      refine ⟨ψ, φ, t, hwh, ht, hP, fun j hj => ?_⟩
      rw [hm j (by rw [hwh j hj, hon j hj])]
      exact hφ j hj
  · left
    obtain ⟨d'', hd⟩ : ∃ d'' : Dsk T E, d'' = ⟨fun j => match d.m j with | .whole t => .whole t | _ => .whole t0, d.l, d.r⟩ := ⟨_, rfl⟩
    have hle : d.Le d'' := by
      subst hd
      refine ⟨fun j => ?_, fun j => Or.inl rfl, fun j => Or.inl rfl⟩
      simp only
      cases hm : d.m j with
      | whole t => exact Or.inl rfl
      | gone => exact Or.inr (by simp)
      | junk => exact Or.inr (by simp)
    have hon : OnDisk N (fun j => match d.m j with | .whole t => t | _ => t0) d'' := fun j hj => by
      subst hd
      simp only
      cases d.m j <;> rfl
    obtain ⟨s1, r1, -⟩ := C21_check (n := n) G bl br hN h0 hon
    obtain ⟨b1, b2⟩ := bounds_ok bl br hN
    have hrd : Reads c (checkBoundary G bl br N : List (Op T E)) := by
      unfold checkBoundary
      rw [if_neg (midL_pos hN)]
      rw [show ∀ (a b : List (Op T E)), .calc (assertEmpty N) :: (a ++ b) = [.calc (assertEmpty N)] ++ (a ++ b) from fun _ _ => rfl]
      exact Reads.prepend (fun o ho => by simp at ho; subst ho; simp) (Reads.append (checkL_reads (by omega)))
    rcases run_sim (show Sim ⟨mem, d⟩ ⟨mem, d''⟩ from ⟨rfl, hle⟩) r1 with hs | ⟨t, ht, -, -⟩
    · unfold vmpsInit
      rw [List.append_assoc]
      exact Stops.append hs
    · obtain ⟨v, hv⟩ := hrd.whole ht
      exact absurd hv (hn v)

/-- **C55** (MPI two-site program). Its sweeps over the range `lb … rb` are killed at any moment, and the program is
started again, with the same range or a smaller one. It either stops at a load of a missing or incomplete file, or
all tensors on disk are complete and it makes exact sweeps on the MPS that they form, after bringing it into canonical
form outside of the range. -/
theorem C55_restart_mpi {A : Alg T E} (H : A.Legs) {G : Gauge T} (L : G.Laws A) {N lb rb : Nat} (h1 : lb + 2 ≤ rb) (h2 : rb < N)
    (k clk : Nat) {ψ : Nat → T} {d d' : Dsk T E} (hm : OnDisk N ψ d) (he : EnvReady A N lb rb ψ d)
    (hc : Crash N (N - 1) (sweeps2 A N lb rb k) ⟨Mem.blank clk, d⟩ d') (bl br : Nat → Bool) (hl : lb ≤ lbOf bl N)
    (hr : rbOf br N ≤ rb) {k' : Nat} (hk : 1 ≤ k') (clk' : Nat) :
    LoadFails (run N (N - 1) (vmpsRun A G bl br N d' k') ⟨Mem.blank clk', d'⟩) ∨
      ∃ ψ' s', OnDisk N ψ' d' ∧ run N (N - 1) (vmpsRun A G bl br N d' k') ⟨Mem.blank clk', d'⟩ = .ok s' ∧
        OnDisk N (optSweeps A N (lbOf bl N) (rbOf br N) k' (gauged G N (lbOf bl N) (rbOf br N) ψ', clk')).1 s'.dsk := by
  have hres := resumable_after h1 h2 (sweeps2_after H h1 h2 (blank_noTensors clk) hm he hc)
  rcases resume (G := G) bl br (n := N - 1) (by omega) hl hr (blank_noTensors clk') hres
    (ops := sweeps2 A N (lbOf bl N) (rbOf br N) k') (fun j => sweeps2_reads hk)
    (P := fun ψ' φ => φ = (optSweeps A N (lbOf bl N) (rbOf br N) k' (gauged G N (lbOf bl N) (rbOf br N) ψ', clk')).1)
    (fun ψ' d'' g1 g2 g3 => by
      obtain ⟨s', r1, e1, -⟩ := C20_vmps_run H L bl br (by omega) k' (blank_noTensors clk') g1 g2 g3
      exact ⟨s', _, r1, rfl, e1⟩) with h | ⟨ψ', φ, s', a1, a2, a3, a4⟩
  · exact Or.inl h
  · exact Or.inr ⟨ψ', s', a1, a2, a3 ▸ a4⟩

/-- **C55** (noised two-site program). The same for the sweeps with subspace expansion. -/
theorem C55_restart_noised {A : Alg T E} {O : Opt3 T E} (H : O.Legs A) {C : Canon T} (HC : C.Legs A) {G : Gauge T} (L : G.Laws A)
    {N lb rb : Nat} (h1 : lb + 2 ≤ rb) (h2 : rb < N) (k clk : Nat) {ψ : Nat → T} {d d' : Dsk T E} (hm : OnDisk N ψ d)
    (he : EnvReady A N lb rb ψ d) (hc : Crash N N (sweeps3 A O C N lb rb k) ⟨Mem.blank clk, d⟩ d') (bl br : Nat → Bool)
    (hl : lb ≤ lbOf bl N) (hr : rbOf br N ≤ rb) {k' : Nat} (hk : 1 ≤ k') (clk' : Nat) :
    LoadFails (run N N (noised A O C N G bl br d' k') ⟨Mem.blank clk', d'⟩) ∨
      ∃ ψ' s', OnDisk N ψ' d' ∧ run N N (noised A O C N G bl br d' k') ⟨Mem.blank clk', d'⟩ = .ok s' ∧
        OnDisk N (noisedMps A O C N (lbOf bl N) (rbOf br N) k' (gauged G N (lbOf bl N) (rbOf br N) ψ', clk')) s'.dsk := by
  have hres := resumable_afterW h1 h2 (ψ 0) ((sweeps3_thru H HC h1 h2 k clk (blank_noTensors clk) hm he).2 _ hc)
  rcases resume (G := G) bl br (n := N) (by omega) hl hr (blank_noTensors clk') hres
    (ops := sweeps3 A O C N (lbOf bl N) (rbOf br N) k') (fun j => sweeps3_reads hk)
    (P := fun ψ' φ => φ = noisedMps A O C N (lbOf bl N) (rbOf br N) k' (gauged G N (lbOf bl N) (rbOf br N) ψ', clk'))
    (fun ψ' d'' g1 g2 g3 => by
      obtain ⟨s', r1, e1, -⟩ := C24_noised H HC L bl br (by omega) k' (blank_noTensors clk') g1 g2 g3
      exact ⟨s', _, r1, rfl, e1⟩) with h | ⟨ψ', φ, s', a1, a2, a3, a4⟩
  · exact Or.inl h
  · exact Or.inr ⟨ψ', s', a1, a2, a3 ▸ a4⟩

/-- A directory with the tensors `0, 1, 2, 3` of four sites and their environments. -/
def exReady : Dsk Nat (List Nat) := ⟨fun j => .whole j, fun k => if k = 0 then .whole [] else .gone,
  fun k => if k ≤ 2 then .whole (exAlg.renv 4 (fun j => j) k) else .gone⟩

/-- The hypotheses of both theorems hold for the concrete algorithm. -/
example : OnDisk 4 (fun j => j) exReady ∧ EnvReady exAlg 4 0 3 (fun j => j) exReady ∧
    0 ≤ lbOf wide.1 4 ∧ rbOf wide.2.1 4 ≤ 3 := by
  refine ⟨fun _ _ => rfl, ⟨rfl, fun k _ h => ?_⟩, by decide, by decide⟩
  simp only [exReady]
  rw [if_pos (by omega)]

/-- There are crash points of both kinds: a torn tensor file stops the restart; between two operations of the first
half of the sweep the restart goes on with what is on disk. -/
example :
    (∃ d', Crash 4 3 (sweeps2 exAlg 4 0 3 1) ⟨Mem.blank 0, exReady⟩ d' ∧
      run 4 3 (vmpsRun exAlg exGauge wide.1 wide.2.1 4 d' 1) ⟨Mem.blank 0, d'⟩ matches .error .badFile) ∧
    (∃ d', Crash 4 3 (sweeps2 exAlg 4 0 3 1) ⟨Mem.blank 0, exReady⟩ d' ∧
      (run 4 3 (vmpsRun exAlg exGauge wide.1 wide.2.1 4 d' 1) ⟨Mem.blank 0, d'⟩).toOption.map (fun s => (shot s.dsk 4).1) =
        some [.whole 10, .whole 16, .whole 17, .whole 15]) ∧
    (∃ d', Crash 4 4 (sweeps3 exAlg exOpt3 exCanon 4 0 3 1) ⟨Mem.blank 0, exReady⟩ d' ∧
      run 4 4 (noised exAlg exOpt3 exCanon 4 exGauge wide.1 wide.2.1 d' 1) ⟨Mem.blank 0, d'⟩ matches .error .badFile) ∧
    (∃ d', Crash 4 4 (sweeps3 exAlg exOpt3 exCanon 4 0 3 1) ⟨Mem.blank 0, exReady⟩ d' ∧
      run 4 4 (noised exAlg exOpt3 exCanon 4 exGauge wide.1 wide.2.1 d' 1) ⟨Mem.blank 0, d'⟩ matches .ok _) :=
  ⟨⟨_, ⟨(sweeps2 exAlg 4 0 3 1).take 9, (sweeps2 exAlg 4 0 3 1).drop 9, _, rfl, rfl, Or.inr ⟨.dpM 0 true, _, rfl, rfl⟩⟩, by decide +kernel⟩,
    ⟨_, ⟨(sweeps2 exAlg 4 0 3 1).take 12, (sweeps2 exAlg 4 0 3 1).drop 12, _, rfl, rfl, Or.inl rfl⟩, by decide +kernel⟩,
    ⟨_, ⟨(sweeps3 exAlg exOpt3 exCanon 4 0 3 1).take 10, (sweeps3 exAlg exOpt3 exCanon 4 0 3 1).drop 10, _, rfl, rfl,
      Or.inr ⟨.dpM 0 true, _, rfl, rfl⟩⟩, by decide +kernel⟩,
    ⟨_, ⟨(sweeps3 exAlg exOpt3 exCanon 4 0 3 1).take 14, (sweeps3 exAlg exOpt3 exCanon 4 0 3 1).drop 14, _, rfl, rfl, Or.inl rfl⟩, by decide +kernel⟩⟩

/-- An algorithm whose tensors are numbers that are added when they are contracted. -/
def sumAlg : Alg Nat Nat where
  trivL _ := 0
  trivR _ := 0
  growL _ e t := e + t
  growR _ e t := e + t
  opt _ _ _ _ _ t u := (t, u)

/-- Shifting weight between two neighbouring tensors. -/
def sumGauge : Gauge Nat := ⟨fun _ t u => (0, t + u), fun _ t u => (t + u, 0)⟩

theorem sumGauge_laws : sumGauge.Laws sumAlg :=
  ⟨fun _ _ _ => rfl, fun _ _ _ => rfl, fun _ _ _ => rfl, fun _ _ _ => rfl, fun _ e t u => by
    show e + 0 + (t + u) = e + u + t; omega⟩

/-- **C55** (the code, crash in `FiniteVMPSInit`). The changes of gauge of the initialisation are written one site at a
time. Killed between two of these writes, all files are complete but the MPS that they form is a different state:
its contraction over all sites is not that of the MPS before, and a restart accepts it. -/
theorem C55_init_crash_violation : ∃ d' : Dsk Nat Nat,
    Crash 4 3 (vmpsInit sumAlg sumGauge wide.1 wide.2.1 4 ⟨fun _ => .whole 1, fun _ => .gone, fun _ => .gone⟩)
      ⟨Mem.blank 0, ⟨fun _ => .whole 1, fun _ => .gone, fun _ => .gone⟩⟩ d' ∧
    OnDisk 4 (fun j => [0, 1, 1, 1].getD j 0) d' ∧
    sumAlg.renv 4 (fun j => [0, 1, 1, 1].getD j 0) 4 ≠ sumAlg.renv 4 (fun _ => 1) 4 ∧
    run 4 3 (vmpsRun sumAlg sumGauge wide.1 wide.2.1 4 d' 1) ⟨Mem.blank 0, d'⟩ matches .ok _ := by
  refine ⟨_, ⟨(vmpsInit sumAlg sumGauge wide.1 wide.2.1 4 ⟨fun _ => .whole 1, fun _ => .gone, fun _ => .gone⟩).take 5,
    (vmpsInit sumAlg sumGauge wide.1 wide.2.1 4 ⟨fun _ => .whole 1, fun _ => .gone, fun _ => .gone⟩).drop 5, _, rfl, rfl,
    Or.inl rfl⟩, fun j hj => ?_, by decide, by decide +kernel⟩
  rcases (show j = 0 ∨ j = 1 ∨ j = 2 ∨ j = 3 by omega) with rfl | rfl | rfl | rfl <;> rfl

end Verif.Props
