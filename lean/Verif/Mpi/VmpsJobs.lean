import Verif.Mpi.VmpsEngRun
import Verif.Mpi.OrdersRun
import Verif.Disk.Wp
import Verif.Disk.BoundaryFacts
/-
The jobs of the parallel two-site optimisation carried out by one process are the program of Verif/Disk/Boundary.lean (helper facts, not property statements).
-/
namespace Verif.Mpi
open Finset Verif.Mps Verif.Algo Verif.Disk

section
variable {σ 𝕜 : Type} [RCLike 𝕜] [Fintype σ] [DecidableEq σ] {N : Nat} {P : VmpsPar σ 𝕜} {SL VL : Type} {L : MpiLib σ 𝕜 SL} {lact : Nat → SL → Act SL VL} {W : Nat}

theorem vmps_laws (hL : L.OK P lact W) : (vmpsEng N P L).Laws (vmpsFull N P L) lact W where
  mul _ _ _ _ _ := rfl
  ov _ _ _ _ _ := rfl
  growL _ _ _ := rfl
  growR _ _ _ := rfl
  expR _ _ _ _ _ := Finset.sum_const_zero
  expL _ _ _ _ _ := Finset.sum_const_zero
  svd d l gs := by
    obtain ⟨⟨M, h1, h2⟩, h3, h4⟩ := hL.svd (gsB gs)
    exact ⟨⟨M, h1, fun n s a b => ⟨(h2 n s a b).1, funext fun dir => (h2 n s a b).2 dir⟩⟩, h3, h4⟩
  sortMul := hL.sortMul
  sortGrow := hL.sortGrow
  lenv_svd d b l gs u k := by cases d <;> rfl
  renv_svd d b l gs u k := by cases d <;> rfl
  lenv_exp _ _ _ _ _ _ := rfl
  renv_exp _ _ _ _ _ _ := rfl

/-- The jobs in a row. -/
theorem jobs_append (js js' : List (Eng.Job (MD σ 𝕜) Unit ℝ)) (d : MD σ 𝕜) :
    (vmpsFull N P L).jobs (vmpsEng N P L) (js ++ js') d = (vmpsFull N P L).jobs (vmpsEng N P L) js' ((vmpsFull N P L).jobs (vmpsEng N P L) js d) := by
  unfold Full.jobs
  rw [List.foldl_append]

/-- The jobs `js` do what the operations `ops` do, provided these succeed. -/
def Does (N : Nat) (P : VmpsPar σ 𝕜) (L : MpiLib σ 𝕜 SL) (js : List (Eng.Job (MD σ 𝕜) Unit ℝ)) (ops : List (Disk.Op (LTen σ 𝕜) (Env3 𝕜))) : Prop :=
  ∀ s s', run N (N - 1) ops s = .ok s' → (vmpsFull N P L).jobs (vmpsEng N P L) js (.ok s) = .ok s'

theorem Does.append {js js' : List (Eng.Job (MD σ 𝕜) Unit ℝ)} {ops ops' : List (Disk.Op (LTen σ 𝕜) (Env3 𝕜))} (h : Does N P L js ops) (h' : Does N P L js' ops') :
    Does N P L (js ++ js') (ops ++ ops') := by
  intro s s' hs
  rw [run_append] at hs
  cases h1 : run N (N - 1) ops s with
  | error e => rw [h1] at hs; cases hs
  | ok s1 =>
    rw [h1] at hs
    rw [jobs_append, h s s1 h1]
    exact h' s1 s' hs

theorem Does.nil : Does N P L [] [] := by
  intro s s' hs
  exact hs

theorem Does.ops (ops : List (Disk.Op (LTen σ 𝕜) (Env3 𝕜))) : Does N P L [opsJob N ops] ops := fun _ _ hs => hs

theorem Does.flatMap {α : Type} (l : List α) {f : α → List (Eng.Job (MD σ 𝕜) Unit ℝ)} {g : α → List (Disk.Op (LTen σ 𝕜) (Env3 𝕜))} (h : ∀ a, Does N P L (f a) (g a)) :
    Does N P L (l.flatMap f) (l.flatMap g) := by
  induction l with
  | nil => exact Does.nil
  | cons a l ih =>
    rw [List.flatMap_cons, List.flatMap_cons]
    exact (h a).append ih

theorem Does.replicate {js : List (Eng.Job (MD σ 𝕜) Unit ℝ)} {ops : List (Disk.Op (LTen σ 𝕜) (Env3 𝕜))} (h : Does N P L js ops) (k : Nat) :
    Does N P L (List.replicate k js).flatten (List.replicate k ops).flatten := by
  induction k with
  | zero => exact Does.nil
  | succ k ih =>
    rw [List.replicate_succ, List.replicate_succ, List.flatten_cons, List.flatten_cons]
    exact h.append ih

theorem use_ok {α : Type} {x : Option α} {a : α} (h : use x = .ok a) : x = some a := by
  cases x with
  | none => cases h
  | some b => cases h; rfl

theorem bind_ok {ε α β : Type} {x : Except ε α} {f : α → Except ε β} {b : β} (h : (x >>= f) = .ok b) : ∃ a, x = .ok a ∧ f a = .ok b := by
  cases x with
  | error e => cases h
  | ok a => exact ⟨a, rfl, h⟩

theorem run_one {o : Disk.Op (LTen σ 𝕜) (Env3 𝕜)} {s s' : Sys (LTen σ 𝕜) (Env3 𝕜)} (h : run N (N - 1) [o] s = .ok s') : exec N (N - 1) o s = .ok s' := by
  unfold run at h
  obtain ⟨a, h1, h2⟩ := bind_ok h
  rw [h1]
  exact h2

theorem exec_calc {f : Mem (LTen σ 𝕜) (Env3 𝕜) → Except Disk.Err (Mem (LTen σ 𝕜) (Env3 𝕜))} {s s' : Sys (LTen σ 𝕜) (Env3 𝕜)} (h : exec N (N - 1) (.calc f) s = .ok s') :
    ∃ m, f s.mem = .ok m ∧ s' = ⟨m, s.dsk⟩ := by
  unfold exec at h
  simp only [] at h
  obtain ⟨m, h1, h2⟩ := bind_ok h
  cases h2
  exact ⟨m, h1, rfl⟩

/-- An update to the right. -/
theorem does_updR (i : Nat) : Does N P L [.upd ⟨true, i, (), none⟩] [.calc (upd2R (engAlg N P L) N (N - 1) i)] := by
  intro s s' hs
  obtain ⟨m, h, rfl⟩ := exec_calc (run_one hs)
  unfold upd2R at h
  split at h
  · rename_i hb
    obtain ⟨e, he, h⟩ := bind_ok h
    obtain ⟨f, hf, h⟩ := bind_ok h
    obtain ⟨t, ht, h⟩ := bind_ok h
    obtain ⟨u, hu, h⟩ := bind_ok h
    have he := use_ok he
    have hf := use_ok hf
    have ht := use_ok ht
    have hu := use_ok hu
    cases h
    show (vmpsFull N P L).update (vmpsEng N P L) true i () none (.ok s) = _
    unfold Full.update
    have l1 : (vmpsEng N P L).lenv (.ok s) i = .val (.env e) := by
      show slotE (s.mem.l i) = _
      rw [he]; rfl
    have r1 : (vmpsEng N P L).renv (.ok s) ((vmpsEng N P L).N - (i + 2)) = .val (.env f) := by
      show slotE (s.mem.r (N - (i + 2))) = _
      rw [hf]; rfl
    have p1 : (vmpsEng N P L).pair (.ok s) i = .val (.two (mergeTen t.ten u.ten)) := by
      show (match s.mem.m i, s.mem.m (i + 1) with
        | some t, some u => TX.val (.two (mergeTen t.ten u.ten))
        | _, _ => .bad) = _
      rw [ht, hu]
    simp only []
    rw [l1, r1, p1]
    unfold Full.finish
    simp only [if_true]
    have l2 : ∀ u', (vmpsEng N P L).lenv ((vmpsEng N P L).setSvd (.ok s) true i u' ((vmpsFull N P L).svd (.ok s) i u')) i = .val (.env e) := fun u' => l1
    have m2 : ∀ u', (vmpsEng N P L).mps ((vmpsEng N P L).setSvd (.ok s) true i u' ((vmpsFull N P L).svd (.ok s) i u')) i = .val (.site (splitV P .r (gsB u')).1) := fun u' => by
      show slotM (Function.update (Function.update s.mem.m i _) (i + 1) _ i) = _
      rw [Function.update_of_ne (by omega), Function.update_self]
      rfl
    rw [l2, m2]
    rfl
  · cases h

/-- An update to the left. -/
theorem does_updL (i : Nat) : Does N P L [.upd ⟨false, i, (), none⟩] [.calc (upd2L (engAlg N P L) N (N - 1) i)] := by
  intro s s' hs
  obtain ⟨m, h, rfl⟩ := exec_calc (run_one hs)
  unfold upd2L at h
  split at h
  · rename_i hb
    obtain ⟨e, he, h⟩ := bind_ok h
    obtain ⟨f, hf, h⟩ := bind_ok h
    obtain ⟨t, ht, h⟩ := bind_ok h
    obtain ⟨u, hu, h⟩ := bind_ok h
    have he := use_ok he
    have hf := use_ok hf
    have ht := use_ok ht
    have hu := use_ok hu
    cases h
    obtain ⟨j, rfl⟩ : ∃ j, i = j + 1 := ⟨i - 1, by omega⟩
    simp only [Nat.add_sub_cancel] at he ht
    show (vmpsFull N P L).update (vmpsEng N P L) false j () none (.ok s) = _
    unfold Full.update
    have l1 : (vmpsEng N P L).lenv (.ok s) j = .val (.env e) := by
      show slotE (s.mem.l j) = _
      rw [he]; rfl
    have r1 : (vmpsEng N P L).renv (.ok s) ((vmpsEng N P L).N - (j + 2)) = .val (.env f) := by
      show slotE (s.mem.r (N - (j + 2))) = _
      rw [show N - (j + 2) = N - (j + 1) - 1 by omega, hf]; rfl
    have p1 : (vmpsEng N P L).pair (.ok s) j = .val (.two (mergeTen t.ten u.ten)) := by
      show (match s.mem.m j, s.mem.m (j + 1) with
        | some t, some u => TX.val (.two (mergeTen t.ten u.ten))
        | _, _ => .bad) = _
      rw [ht, hu]
    simp only []
    rw [l1, r1, p1]
    unfold Full.finish
    simp only [Bool.false_eq_true, if_false]
    have r2 : ∀ u', (vmpsEng N P L).renv ((vmpsEng N P L).setSvd (.ok s) false j u' ((vmpsFull N P L).svd (.ok s) j u')) ((vmpsEng N P L).N - (j + 2)) = .val (.env f) := fun u' => r1
    have m2 : ∀ u', (vmpsEng N P L).mps ((vmpsEng N P L).setSvd (.ok s) false j u' ((vmpsFull N P L).svd (.ok s) j u')) (j + 1) = .val (.site (splitV P .l (gsB u')).2) := fun u' => by
      show slotM (Function.update (Function.update s.mem.m j _) (j + 1) _ (j + 1)) = _
      rw [Function.update_self]
      rfl
    rw [r2, m2]
    rfl
  · cases h

/-- The loop over the right environments. -/
theorem does_envs : ∀ (n i : Nat) (s s' : Sys (LTen σ 𝕜) (Env3 𝕜)), run N (N - 1) ((List.range' i n).flatMap (initStep (engAlg N P L) N)) s = .ok s' →
    (vmpsFull N P L).envs (vmpsEng N P L) n i (.ok s) = .ok s' := by
  intro n
  induction n with
  | zero => intro i s s' h; exact h
  | succ n ih =>
    intro i s s' h
    rw [List.range'_succ, List.flatMap_cons, run_append] at h
    obtain ⟨s2, h1, h2⟩ := bind_ok h
    unfold initStep at h1
    rw [run_append] at h1
    obtain ⟨s1, h0, h1⟩ := bind_ok h1
    rw [show ([.calc (pushR (engAlg N P L) (N - i)), .wrR i, .frM (N - i)] : List (Disk.Op (LTen σ 𝕜) (Env3 𝕜))) = [.calc (pushR (engAlg N P L) (N - i))] ++ [.wrR i, .frM (N - i)] from rfl,
      run_append] at h1
    obtain ⟨s3, h3, h1⟩ := bind_ok h1
    obtain ⟨m, h4, rfl⟩ := exec_calc (run_one h3)
    unfold pushR at h4
    obtain ⟨e, he, h4⟩ := bind_ok h4
    obtain ⟨t, ht, h4⟩ := bind_ok h4
    have he := use_ok he
    have ht := use_ok ht
    cases h4
    unfold Full.envs
    simp only []
    have hl : (vmpsEng N P L).loadE (.ok s) i = .ok s1 := h0
    rw [hl]
    have ee : (vmpsEng N P L).envE (.ok s1) (i - 1) = .val (.env e) := by
      show slotE s1.mem.reg = _
      rw [he]; rfl
    have em : (vmpsEng N P L).mps (.ok s1) ((vmpsEng N P L).N - i) = .val (.site t.ten) := by
      show slotM (s1.mem.m (N - i)) = _
      rw [ht]; rfl
    rw [ee, em]
    have hp : (vmpsEng N P L).putE (.ok s1) i ((vmpsFull N P L).growR (.val (.env e)) ((vmpsEng N P L).mpo ((vmpsEng N P L).N - i)) (.val (.site t.ten))) = .ok s2 := h1
    rw [hp]
    exact ih (i + 1) s2 s' h2

/-- The whole program. -/
theorem does_vmps (G : Gauge (LTen σ 𝕜)) (bl br : Nat → Bool) (d : Dsk (LTen σ 𝕜) (Env3 𝕜)) (k : Nat) :
    Does N P L (masterJ (engAlg N P L) G bl br N d k) (vmpsRun (engAlg N P L) G bl br N d k) := by
  have hR : ∀ lb i, Does N P L (jobsR N lb i) (stepR2 (engAlg N P L) N lb i) := fun lb i => by
    unfold jobsR stepR2
    exact (Does.ops _).append ((does_updR i).append (Does.ops _))
  have hL : ∀ rb i, Does N P L (jobsL N rb i) (stepL2 (engAlg N P L) N rb i) := fun rb i => by
    unfold jobsL stepL2
    exact (Does.ops _).append ((does_updL i).append (Does.ops _))
  have hS : ∀ lb rb, Does N P L (sweepJ N lb rb) (sweep2 (engAlg N P L) N lb rb) := fun lb rb =>
    (Does.ops [.calc freshEnvs]).append ((Does.flatMap _ (hR lb)).append ((Does.flatMap _ (hL rb)).append (Does.ops _)))
  have hI : ∀ usn, Does N P L (initJ (engAlg N P L) N usn) (initEnvs (engAlg N P L) N usn) := fun usn =>
    (Does.ops [.ldM (N - 1), .calc (startR (engAlg N P L) N), .wrR 0]).append
      (Does.append (js := [.envs (N - usn)]) (fun s s' h => does_envs _ _ _ _ h) (Does.ops [.ldM 0, .calc (startL (engAlg N P L)), .wrL 0, .frM 0, .calc (assertEmpty N)]))
  unfold masterJ vmpsRun vmpsInit sweeps2
  rw [List.append_assoc, List.append_assoc]
  refine (Does.ops _).append (Does.append ?_ ((Does.ops _).append ((Does.ops [.ldM (lbOf bl N + 1)]).append (((hS _ _).replicate k).append (Does.ops _)))))
  split
  · exact hI _
  · exact Does.nil

/-- The sites of all updates exist. -/
theorem vmps_jobs_ok {G : Gauge (LTen σ 𝕜)} {bl br : Nat → Bool} (hN : 3 ≤ N) (hK : 2 ≤ P.maxIter) (A : Alg (LTen σ 𝕜) (Env3 𝕜)) (d : Dsk (LTen σ 𝕜) (Env3 𝕜)) (k : Nat) :
    ∀ j ∈ masterJ A G bl br N d k, j.ok (vmpsEng N P L) .vmps := by
  obtain ⟨b1, b2⟩ := bounds_ok bl br hN
  intro j hj
  simp only [masterJ, List.mem_cons, List.mem_append, List.not_mem_nil, or_false] at hj
  rcases hj with rfl | hj | rfl | rfl | hj | rfl
  · trivial
  · split at hj
    · simp only [initJ, List.mem_cons, List.not_mem_nil, or_false] at hj
      rcases hj with rfl | rfl | rfl
      · trivial
      · exact ⟨rfl, by show N - _ ≤ N; omega⟩
      · trivial
    · cases hj
  · trivial
  · trivial
  · rw [List.mem_flatten] at hj
    obtain ⟨l, hl, hj⟩ := hj
    obtain rfl := List.eq_of_mem_replicate hl
    simp only [sweepJ, List.mem_cons, List.mem_append, List.mem_flatMap, jobsR, jobsL, sitesR, sitesL, List.mem_reverse, List.mem_range'_1, List.not_mem_nil, or_false] at hj
    rcases hj with rfl | ⟨i, hi, rfl | rfl | rfl⟩ | ⟨i, hi, rfl | rfl | rfl⟩ | rfl
    · trivial
    · trivial
    · exact ⟨by show i + 1 < N; omega, hK, fun h => by cases h⟩
    · trivial
    · trivial
    · exact ⟨by show 1 ≤ i ∧ i < N; omega, hK, fun h => by cases h⟩
    · trivial
    · trivial
  · trivial

end
end Verif.Mpi
