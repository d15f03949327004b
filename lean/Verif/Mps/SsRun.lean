import Verif.Mps.SsStep
/-
The sweeps of the single-site optimisation: the canonical form is kept, and the noises that the program chooses are one of the sequences the theorems speak about.
-/
namespace Verif.Mps
open Finset Verif.Disk Verif.Algo Verif.Props

/-! ### The order of the updates -/

/-- The centre after an update. -/
def ssNext : Dir × Nat → Nat
  | (.r, i) => i + 1
  | (.l, i) => i - 1

/-- The updates can follow each other when the centre is at `c`: each is at the centre. -/
def SsPath (N : Nat) : Nat → List (Dir × Nat) → Prop
  | _, [] => True
  | c, u :: us => (u.2 = c ∧ u.2 < N ∧ (u.1 = .r → u.2 + 1 < N) ∧ (u.1 = .l → 1 ≤ u.2)) ∧ SsPath N (ssNext u) us

/-- The centre at the end. -/
def ssEnds (c : Nat) (us : List (Dir × Nat)) : Nat := us.foldl (fun _ u => ssNext u) c

theorem ssPath_append {N : Nat} : ∀ {c : Nat} {us vs : List (Dir × Nat)}, SsPath N c (us ++ vs) ↔ SsPath N c us ∧ SsPath N (ssEnds c us) vs
  | c, [], vs => by simp [SsPath, ssEnds]
  | c, u :: us, vs => by
    rw [List.cons_append]
    show _ ∧ SsPath N (ssNext u) (us ++ vs) ↔ (_ ∧ SsPath N (ssNext u) us) ∧ SsPath N (ssEnds (ssNext u) us) vs
    rw [ssPath_append]
    exact and_assoc.symm

theorem ssEnds_append (c : Nat) (us vs : List (Dir × Nat)) : ssEnds c (us ++ vs) = ssEnds (ssEnds c us) vs := by
  unfold ssEnds; rw [List.foldl_append]

theorem ssPath_r {N : Nat} : ∀ m c, c + m < N → SsPath N c ((List.range' c m).map fun i => (.r, i)) ∧ ssEnds c ((List.range' c m).map fun i => (.r, i)) = c + m
  | 0, c, _ => ⟨trivial, rfl⟩
  | m + 1, c, h => by
    obtain ⟨a, b⟩ := ssPath_r (N := N) m (c + 1) (by omega)
    rw [List.range'_succ, List.map_cons]
    refine ⟨⟨⟨rfl, by simp only; omega, fun _ => by simp only; omega, fun h => by cases h⟩, a⟩, ?_⟩
    show ssEnds (c + 1) _ = _
    rw [b]; omega

theorem ssPath_l {N : Nat} : ∀ m, m < N → SsPath N m ((List.range' 1 m).reverse.map fun i => (.l, i)) ∧ ssEnds m ((List.range' 1 m).reverse.map fun i => (.l, i)) = 0
  | 0, _ => ⟨trivial, rfl⟩
  | m + 1, h => by
    obtain ⟨a, b⟩ := ssPath_l (N := N) m (by omega)
    rw [List.range'_concat, List.reverse_append, List.reverse_singleton, List.map_append]
    have e : 1 + 1 * m = m + 1 := by omega
    rw [e]
    exact ⟨⟨⟨rfl, h, (fun h => by cases h), fun _ => Nat.le_add_left 1 m⟩, a⟩, b⟩

theorem ssPath_sweep {N : Nat} (hN : 2 ≤ N) : SsPath N 0 (ssSweep N) ∧ ssEnds 0 (ssSweep N) = 0 := by
  obtain ⟨a, b⟩ := ssPath_r (N := N) (N - 1) 0 (by omega)
  obtain ⟨c, d⟩ := ssPath_l (N := N) (N - 1) (by omega)
  unfold ssSweep
  rw [List.range_eq_range']
  rw [ssPath_append, ssEnds_append, b, Nat.zero_add]
  exact ⟨⟨a, c⟩, d⟩

theorem ssPath_sweeps {N : Nat} (hN : 2 ≤ N) : ∀ k, SsPath N 0 (ssUpds N k) ∧ ssEnds 0 (ssUpds N k) = 0
  | 0 => ⟨trivial, rfl⟩
  | k + 1 => by
    obtain ⟨a, b⟩ := ssPath_sweep hN
    obtain ⟨c, d⟩ := ssPath_sweeps hN k
    unfold ssUpds at c d ⊢
    rw [List.replicate_succ, List.flatten_cons, ssPath_append, ssEnds_append, b]
    exact ⟨⟨a, c⟩, d⟩

theorem ssUpds_last {N : Nat} (hN : 2 ≤ N) {k : Nat} (hk : k ≠ 0) : ∃ us, ssUpds N k = us ++ [(.l, 1)] := by
  obtain ⟨k, rfl⟩ := Nat.exists_eq_succ_of_ne_zero hk
  have : ∃ us, ssSweep N = us ++ [(.l, 1)] := by
    unfold ssSweep
    obtain ⟨m, hm⟩ : ∃ m, N - 1 = m + 1 := ⟨N - 2, by omega⟩
    rw [hm, List.range'_succ (s := 1), List.reverse_cons, List.map_append, ← List.append_assoc]
    exact ⟨_, rfl⟩
  obtain ⟨us, hu⟩ := this
  refine ⟨(List.replicate k (ssSweep N)).flatten ++ us, ?_⟩
  unfold ssUpds
  rw [List.replicate_succ', List.flatten_append, List.append_assoc, ← hu]
  simp

section run
variable {σ 𝕜 : Type} [RCLike 𝕜] [Fintype σ] [DecidableEq σ] {N : Nat} {P : SsPar σ 𝕜}

theorem opt1Sweep_fold (ψ : (Nat → LTen σ 𝕜) × Nat) : opt1Sweep (ssAlg N P) (ssOpt N P) N ψ = (ssSweep N).foldl (ss1 N P) ψ := by
  unfold opt1Sweep ssSweep
  rw [List.foldl_append, List.foldl_map, List.foldl_map]
  rfl

theorem opt1Sweeps_fold : ∀ k (ψ : (Nat → LTen σ 𝕜) × Nat), opt1Sweeps (ssAlg N P) (ssOpt N P) N k ψ = (ssUpds N k).foldl (ss1 N P) ψ
  | 0, _ => rfl
  | k + 1, ψ => by
    show opt1Sweeps (ssAlg N P) (ssOpt N P) N k (opt1Sweep (ssAlg N P) (ssOpt N P) N ψ) = _
    rw [opt1Sweeps_fold k, opt1Sweep_fold]
    unfold ssUpds
    rw [List.replicate_succ, List.flatten_cons, List.foldl_append]

/-- One update of the sweep. -/
theorem ss1_ok (hP : SsOK N P) {ψ : (Nat → LTen σ 𝕜) × Nat} {u : Dir × Nat} (h1 : u.2 < N) (h2 : u.1 = .r → u.2 + 1 < N) (h3 : u.1 = .l → 1 ≤ u.2)
    (h : Canon N u.2 (tens ψ.1)) (hz : stateV N (tens ψ.1) ≠ 0) :
    Canon N (ssNext u) (tens (ss1 N P ψ u).1) ∧ (|P.noise ψ.2| < 1e-15 → stateV N (tens (ss1 N P ψ u).1) ≠ 0) ∧
      ∃ e, ((ss1 N P ψ u).1 u.2).e0 = some e ∧ ((ss1 N P ψ u).1 (ssNext u)).e0 = some e ∧
        HStep N (opM N P.w) P.NoCut (stateV N (tens ψ.1)) e (stateV N (tens (ss1 N P ψ u).1)) := by
  obtain ⟨d, i⟩ := u
  cases d with
  | r =>
    obtain ⟨p, e, hp, e1, e2, hs, hc, hn⟩ := ssUpdR_ok hP (P.noise ψ.2) (h2 rfl) h hz
    have hq : (ss1 N P ψ (.r, i)).1 = put ψ.1 i p := by rw [← hp]; rfl
    rw [hq]
    refine ⟨hc, hn, e, ?_, ?_, hs⟩
    · show (put ψ.1 i p i).e0 = _
      unfold put; rw [Function.update_of_ne (by omega), Function.update_self]; exact e1
    · show (put ψ.1 i p (i + 1)).e0 = _
      unfold put; rw [Function.update_self]; exact e2
  | l =>
    obtain ⟨j, rfl⟩ : ∃ j, i = j + 1 := ⟨i - 1, by have := h3 rfl; simp only at this; omega⟩
    obtain ⟨p, e, hp, e1, e2, hs, hc, hn⟩ := ssUpdL_ok hP (P.noise ψ.2) h1 h hz
    have hq : (ss1 N P ψ (.l, j + 1)).1 = put ψ.1 j p := by rw [← hp]; rfl
    rw [hq]
    refine ⟨hc, hn, e, ?_, ?_, hs⟩
    · show (put ψ.1 j p (j + 1)).e0 = _
      unfold put; rw [Function.update_self]; exact e2
    · show (put ψ.1 j p j).e0 = _
      unfold put; rw [Function.update_of_ne (by omega), Function.update_self]; exact e1

theorem ssAt_succ {us : List (Dir × Nat)} {ψ : (Nat → LTen σ 𝕜) × Nat} {n : Nat} (hn : n < us.length) :
    ssAt N P us ψ (n + 1) = ss1 N P (ssAt N P us ψ n) us[n] := by
  unfold ssAt
  rw [List.take_add_one, List.getElem?_eq_getElem hn, List.foldl_append]
  rfl

/-- As long as the state has not become zero, the chain is canonical with its centre at the next target. -/
theorem ssAt_canon (hP : SsOK N P) : ∀ (us : List (Dir × Nat)) {ψ : (Nat → LTen σ 𝕜) × Nat} {c : Nat}, SsPath N c us → Canon N c (tens ψ.1) → ∀ n, n ≤ us.length →
    (∀ m, m < n → ssState N P us ψ m ≠ 0) → Canon N (ssEnds c (us.take n)) (tens (ssAt N P us ψ n).1)
  | us, ψ, c, hp, h, 0, _, _ => by simpa [ssAt, ssEnds] using h
  | [], ψ, c, hp, h, n + 1, hn, _ => by simp at hn
  | u :: us, ψ, c, hp, h, n + 1, hn, hz => by
    obtain ⟨⟨rfl, p1, p2, p3⟩, p4⟩ := hp
    have h0 : stateV N (tens ψ.1) ≠ 0 := by simpa [ssState, ssAt] using hz 0 (by omega)
    obtain ⟨a, -, -⟩ := ss1_ok hP p1 p2 p3 h h0
    exact ssAt_canon hP us p4 a n (by simpa using hn) fun m hm => hz (m + 1) (by omega)

/-- One update of the run, as long as the state has not become zero. -/
theorem ssAt_ok (hP : SsOK N P) {us : List (Dir × Nat)} {ψ : (Nat → LTen σ 𝕜) × Nat} {c : Nat} (hp : SsPath N c us) (h : Canon N c (tens ψ.1)) {n : Nat} (hn : n < us.length)
    (hz : ∀ m, m ≤ n → ssState N P us ψ m ≠ 0) : Canon N us[n].2 (tens (ssAt N P us ψ n).1) ∧ Canon N (ssNext us[n]) (tens (ssAt N P us ψ (n + 1)).1) ∧
      (|P.noise (ssAt N P us ψ n).2| < 1e-15 → ssState N P us ψ (n + 1) ≠ 0) ∧
      ∃ e, ((ssAt N P us ψ (n + 1)).1 us[n].2).e0 = some e ∧ ((ssAt N P us ψ (n + 1)).1 (ssNext us[n])).e0 = some e ∧
        HStep N (opM N P.w) P.NoCut (ssState N P us ψ n) e (ssState N P us ψ (n + 1)) := by
  have hc := ssAt_canon hP us hp h n (by omega) fun m hm => hz m (by omega)
  have hs : us = us.take n ++ us[n] :: us.drop (n + 1) := by
    rw [← List.drop_eq_getElem_cons hn, List.take_append_drop]
  have hp' := hp
  rw [hs, ssPath_append] at hp'
  obtain ⟨-, ⟨p0, p1, p2, p3⟩, -⟩ := hp'
  rw [← p0] at hc
  have := ss1_ok hP p1 p2 p3 hc (hz n (Nat.le_refl _))
  unfold ssState
  rw [ssAt_succ hn]
  exact ⟨hc, this⟩

/-- The local work keeps the outer legs. -/
theorem ss_legs (hR : SiteSvdR P.svdR) (hL : SiteSvdL P.svdL) : (ssOpt N P).Legs (ssAlg N P) where
  left := fun c d i e f t u => by
    have : (ssUpd N P (P.noise c) d i e f t.ten u.ten).1.ten.l = t.ten.l := by
      unfold ssUpd
      cases d with
      | r =>
        simp only
        cases ssLanczos P i e f t.ten with
        | none => rfl
        | some g =>
          show (P.svdR (ssExpR N P (P.noise c) i e (ofS g.vec) u.ten).1).1.l = _
          rw [hR.dim]; unfold ssExpR; split <;> rfl
      | l =>
        simp only
        cases ssLanczos P i e f u.ten with
        | none => rfl
        | some g =>
          show (ssExpL N P (P.noise c) i f t.ten (ofS g.vec)).1.l = _
          unfold ssExpL; split <;> rfl
    show unitEnv (ssUpd N P (P.noise c) d i e f t.ten u.ten).1.ten.l (P.w 0).l (ssUpd N P (P.noise c) d i e f t.ten u.ten).1.ten.l = unitEnv t.ten.l (P.w 0).l t.ten.l
    rw [this]
  right := fun c d i e f t u => by
    have : (ssUpd N P (P.noise c) d i e f t.ten u.ten).2.ten.r = u.ten.r := by
      unfold ssUpd
      cases d with
      | r =>
        simp only
        cases ssLanczos P i e f t.ten with
        | none => rfl
        | some g =>
          show (ssExpR N P (P.noise c) i e (ofS g.vec) u.ten).2.r = _
          unfold ssExpR; split <;> rfl
      | l =>
        simp only
        cases ssLanczos P i e f u.ten with
        | none => rfl
        | some g =>
          show (P.svdL (ssExpL N P (P.noise c) i f t.ten (ofS g.vec)).2).1.r = _
          rw [hL.dim]; unfold ssExpL; split <;> rfl
    show unitEnv (ssUpd N P (P.noise c) d i e f t.ten u.ten).2.ten.r (P.w (N - 1)).r (ssUpd N P (P.noise c) d i e f t.ten u.ten).2.ten.r = unitEnv u.ten.r (P.w (N - 1)).r u.ten.r
    rw [this]

end run

/-! ### A hidden state that chooses a number for each step is one sequence of numbers -/

section seq
variable {S H U : Type}

/-- Steps with a given sequence of numbers. -/
def seqRun (step : ℝ → S → U → S) (ν : Nat → ℝ) (us : List U) (s : S × Nat) : S × Nat := us.foldl (fun s u => (step (ν s.2) s.1 u, s.2 + 1)) s

theorem seqRun_congr (step : ℝ → S → U → S) {ν ν' : Nat → ℝ} : ∀ (us : List U) (s : S) (c : Nat), (∀ n, c ≤ n → ν n = ν' n) →
    seqRun step ν us (s, c) = seqRun step ν' us (s, c)
  | [], _, _, _ => rfl
  | u :: us, s, c, h => by
    show seqRun step ν us (step (ν c) s u, c + 1) = seqRun step ν' us (step (ν' c) s u, c + 1)
    rw [h c (Nat.le_refl _)]
    exact seqRun_congr step us _ _ fun n hn => h n (by omega)

theorem seqRun_exists (step : ℝ → S → U → S) (f : S → H → U → ℝ) (g : S → H → U → H) : ∀ (us : List U) (s : S) (h : H) (c : Nat),
    ∃ ν : Nat → ℝ, ∀ n, (seqRun step ν (us.take n) (s, c)).1 = ((us.take n).foldl (fun s u => (step (f s.1 s.2 u) s.1 u, g s.1 s.2 u)) (s, h)).1
  | [], s, h, c => ⟨fun _ => 0, fun n => by rw [List.take_nil]; rfl⟩
  | u :: us, s, h, c => by
    obtain ⟨ν, hν⟩ := seqRun_exists step f g us (step (f s h u) s u) (g s h u) (c + 1)
    refine ⟨fun n => if n = c then f s h u else ν n, fun n => ?_⟩
    cases n with
    | zero => rfl
    | succ n =>
      rw [List.take_succ_cons]
      show (seqRun step (fun n => if n = c then f s h u else ν n) (us.take n) (step (if c = c then f s h u else ν c) s u, c + 1)).1 = _
      rw [if_pos rfl, seqRun_congr step _ _ (c + 1) (ν' := ν) (fun n hn => if_neg (by omega)), hν]
      rfl

end seq
end Verif.Mps
