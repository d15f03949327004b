import Verif.Algo.Expmv
/-
The solver for `exp(-i δ H) v` of the parallel TDVP master as a machine that is given one product after the other (algo_mpi/tdvp/lanczos_expmv_solver_mpi.h:30-201), and the
fact that it computes what `expSolveMpi` computes.
-/
namespace Verif.Algo
open Function

/-- `m`, `bases`, `a`, `b`, `combination_factor`, `last_combination_factor`, `eff_ham_eff_dim`, and the result once there is one. -/
structure ExM (V : Type) where
  m : Nat
  bs : Nat → V
  a : Nat → ℝ
  b : Nat → ℝ
  comb : Nat → ℂ
  last : Nat → ℂ
  dim : Nat
  res : Option (ExpRes V)

section
variable {V : Type} [NormedAddCommGroup V] [InnerProductSpace ℂ V]

open Classical in
/-- The loop from its beginning to the next product (lanczos_expmv_solver_mpi.h:89-154), `γ` after `LinearCombine`. -/
noncomputable def exRound (eig : EigSolver) (δ : ℝ) (s : ExM V) (γ : V) : ExM V :=
  if ‖γ‖ = 0 then
    { s with res := some (if s.m + 1 = 1 then ⟨s.m + 1, Complex.exp ((-δ * s.a 0 : ℝ) * Complex.I) • s.bs 0⟩
        else ⟨s.m + 1, combineC (s.m + 1) (expme1 eig s.a s.b (s.m + 1) δ s.comb) s.bs⟩) }
  else { s with m := s.m + 1, bs := update s.bs (s.m + 1) (normalize ℂ γ), b := update s.b s.m ‖γ‖ }

/-- From the first product `x` of the normalised state `v` on (lanczos_expmv_solver_mpi.h:67-154). -/
noncomputable def exBegin (eig : EigSolver) (δ : ℝ) (dim : Nat) (v x : V) (a0 : ℝ) : ExM V :=
  exRound eig δ ⟨0, fun _ => v, fun i => if i = 0 then a0 else 0, fun _ => 0, fun _ => 0, fun _ => 0, dim, none⟩ (x - (a0 : ℂ) • v)

open Classical in
/-- From the product `x` of `bases[m]` with overlap `ov` on (lanczos_expmv_solver_mpi.h:155-199 and the beginning of the next round). -/
noncomputable def exNext (eig : EigSolver) (δ : ℝ) (K : Nat) (err : ℝ) (s : ExM V) (x : V) (ov : ℝ) : ExM V :=
  let a := update s.a s.m ov
  let comb := expme1 eig a s.b (s.m + 1) δ s.comb
  let ld := distance s.last comb (s.m + 1)
  if ld.2 < err ∨ s.m = s.dim ∨ s.m = K - 1 then
    { s with a := a, comb := comb, last := ld.1, res := some ⟨s.m + 1, combineC (s.m + 1) comb s.bs⟩ }
  else exRound eig δ { s with a := a, comb := ld.1, last := comb } (x - (ov : ℂ) • s.bs s.m - (s.b (s.m - 1) : ℂ) • s.bs (s.m - 1))

/-- The loop with at most `n` more products. -/
noncomputable def exRun (eig : EigSolver) (δ : ℝ) (K : Nat) (err : ℝ) (H : V →ₗ[ℂ] V) : Nat → ExM V → ExM V
  | 0, s => s
  | n + 1, s => if s.res.isSome then s
    else exRun eig δ K err H n (exNext eig δ K err s (H (s.bs s.m)) (RCLike.re (inner ℂ (s.bs s.m) (H (s.bs s.m)))))

end

/-- **Specification**: the eigensolver only reads the entries of the matrix of the given size. -/
def EigLocal (eig : EigSolver) : Prop := ∀ a a' b b' n, (∀ i, i < n → a i = a' i) → (∀ i, i + 1 < n → b i = b' i) → eig a b n = eig a' b' n

section
variable {V : Type} [NormedAddCommGroup V] [InnerProductSpace ℂ V] {H : V →ₗ[ℂ] V} {v : V} {eig : EigSolver} {δ : ℝ} {K dim : Nat} {err : ℝ}

theorem exRun_over (s : ExM V) (h : s.res.isSome = true) : ∀ n, exRun eig δ K err H n s = s := by
  intro n
  cases n with
  | zero => rfl
  | succ n => unfold exRun; rw [if_pos h]

/-- What the machine holds when `m` rounds are over and the product of `bases[m]` is needed. -/
structure ExInv (H : V →ₗ[ℂ] V) (v : V) (dim : Nat) (s : ExM V) (m : Nat) (comb last : Nat → ℂ) : Prop where
  rm : s.m = m
  rc : s.comb = comb
  rl : s.last = last
  res : s.res = none
  rdim : s.dim = dim
  bs : ∀ i, i ≤ m → s.bs i = (krylov H v i).cur
  a : ∀ i, i < m → s.a i = kDiag H (krylov H v i)
  b : ∀ i, i < m → s.b i = (krylov H v (i + 1)).β

theorem combineC_bases (n : Nat) (x : Nat → ℂ) {bs bs' : Nat → V} (hb : ∀ i, i < n → bs i = bs' i) : combineC n x bs = combineC n x bs' := by
  unfold combineC
  congr 1
  exact List.map_congr_left fun i hi => by rw [hb i (List.mem_range.1 hi)]

theorem expme1_eq (hE : EigLocal eig) {a a' b b' : Nat → ℝ} {n : Nat} (ha : ∀ i, i < n → a i = a' i) (hb : ∀ i, i + 1 < n → b i = b' i) (c : Nat → ℂ) :
    expme1 eig a b n δ c = expme1 eig a' b' n δ c := by
  unfold expme1
  rw [hE a a' b b' n ha hb]

/-- The rest of a round. -/
theorem exRound_ok (hE : EigLocal eig) {s : ExM V} {m : Nat} {comb last : Nat → ℂ} (hs : ExInv H v dim s m comb last) (ha : s.a m = kDiag H (krylov H v m)) {γ : V}
    (hγ : γ = kResid H (m == 0) (krylov H v m)) :
    if (krylov H v (m + 1)).β = 0 then
      (exRound eig δ s γ).res = some (if m + 1 = 1 then ⟨m + 1, Complex.exp ((-δ * kDiag H (krylov H v 0) : ℝ) * Complex.I) • (krylov H v 0).cur⟩ else
        ⟨m + 1, combineC (m + 1) (expme1 eig (fun i => kDiag H (krylov H v i)) (fun i => (krylov H v (i + 1)).β) (m + 1) δ comb) fun i => (krylov H v i).cur⟩)
    else ExInv H v dim (exRound eig δ s γ) (m + 1) comb last ∧ ∀ i, i < m + 1 → (exRound eig δ s γ).a i = s.a i := by
  have hn : ‖γ‖ = (krylov H v (m + 1)).β := by rw [hγ]; rfl
  have ha' : ∀ i, i < m + 1 → s.a i = kDiag H (krylov H v i) := fun i hi => by
    rcases Nat.lt_or_ge i m with h1 | h1
    · exact hs.a i h1
    · rw [show i = m by omega]; exact ha
  split
  · rename_i hz
    unfold exRound
    rw [if_pos (hn.trans hz)]
    simp only [hs.rm, hs.rc]
    congr 1
    split
    · rw [ha' 0 (by omega), hs.bs 0 (Nat.zero_le m)]
    · congr 1
      rw [expme1_eq hE ha' fun i hi => hs.b i (by omega)]
      exact combineC_bases _ _ fun i hi => hs.bs i (by omega)
  · rename_i hz
    unfold exRound
    rw [if_neg (fun h0 => hz (hn.symm.trans h0))]
    refine ⟨⟨by simp only [hs.rm], hs.rc, hs.rl, hs.res, hs.rdim, fun i hi => ?_, ha', fun i hi => ?_⟩, fun i _ => rfl⟩
    · simp only [hs.rm]
      by_cases hm : i = m + 1
      · subst hm
        rw [update_self, hγ]
        rfl
      · rw [update_of_ne hm]
        exact hs.bs i (by omega)
    · simp only [hs.rm]
      by_cases hm : i = m
      · subst hm
        rw [update_self, hn]
      · rw [update_of_ne hm]
        exact hs.b i (by omega)

/-- The loop computes what `expLoop` computes, and has a result. -/
theorem exRun_ok (hE : EigLocal eig) :
    ∀ (fuel n m : Nat) (comb last : Nat → ℂ) (s : ExM V) (γ : V), K ≤ m + 1 + n → m + 2 ≤ K → K ≤ m + 1 + fuel →
      ExInv H v dim s m comb last → s.a m = kDiag H (krylov H v m) → γ = kResid H (m == 0) (krylov H v m) →
      ∃ r, expLoop H v eig δ 1 K dim err fuel m comb last = some r ∧ (exRun eig δ K err H n (exRound eig δ s γ)).res = some r := by
  intro fuel
  induction fuel with
  | zero => intro n m comb last s γ h1 h2 h3; omega
  | succ fuel ih =>
    intro n m comb last s γ h1 h2 h3 hs ha hγ
    have hround := exRound_ok (δ := δ) hE hs ha hγ
    unfold expLoop
    simp only [Complex.ofReal_one, one_mul]
    split
    · rename_i hz
      rw [if_pos hz] at hround
      rw [exRun_over _ (by rw [hround]; rfl), hround]
      by_cases hm : m + 1 = 1
      · rw [if_pos hm, if_pos hm]
        exact ⟨_, rfl, rfl⟩
      · rw [if_neg hm, if_neg hm]
        exact ⟨_, rfl, rfl⟩
    · rename_i hz
      rw [if_neg hz] at hround
      obtain ⟨hi, hi2⟩ := hround
      generalize exRound eig δ s γ = s1 at hi hi2
      obtain ⟨n, rfl⟩ : ∃ k, n = k + 1 := ⟨n - 1, by omega⟩
      have hstep : exRun eig δ K err H (n + 1) s1 =
          exRun eig δ K err H n (exNext eig δ K err s1 (H (krylov H v (m + 1)).cur) (kDiag H (krylov H v (m + 1)))) := by
        show (if s1.res.isSome then s1 else _) = _
        rw [hi.res, if_neg (by simp), hi.rm, hi.bs _ (le_refl _)]
        rfl
      have hexp : expme1 eig (update s1.a s1.m (kDiag H (krylov H v (m + 1)))) s1.b (s1.m + 1) δ s1.comb =
          expme1 eig (fun i => kDiag H (krylov H v i)) (fun i => (krylov H v (i + 1)).β) (m + 1 + 1) δ comb := by
        rw [hi.rm, hi.rc]
        refine expme1_eq hE (fun i h1 => ?_) (fun i h1 => hi.b i (by omega)) _
        by_cases hm : i = m + 1
        · subst hm; rw [update_self]
        · rw [update_of_ne hm]; exact hi.a i (by omega)
      rw [hstep]
      unfold exNext
      simp only []
      rw [hexp, hi.rl, hi.rm, hi.rdim]
      split
      · refine ⟨_, rfl, ?_⟩
        rw [exRun_over _ rfl]
        exact congrArg (fun x => some (ExpRes.mk (m + 1 + 1) x)) (combineC_bases (m + 1 + 1) _ fun i h1 => hi.bs i (by omega))
      · rename_i hc
        simp only [not_or] at hc
        refine ih n (m + 1) _ _ _ _ (by omega) (by omega) (by omega) ⟨rfl, rfl, rfl, hi.res, rfl, hi.bs, fun i h1 => ?_, hi.b⟩ ?_ ?_
        · simp only []
          rw [update_of_ne (by omega)]
          exact hi.a i h1
        · simp only []
          rw [update_self]
        · rw [hi.bs _ (le_refl _), show m + 1 - 1 = m from rfl, hi.bs m (by omega), hi.b m (by omega)]
          unfold kResid
          rw [if_neg (by simp)]
          rfl

/-- The whole run: the first product, then at most `K - 1` more. -/
theorem exRun_solve (hE : EigLocal eig) (hK : 2 ≤ K) :
    ∃ r, expSolveMpi H v eig δ K dim err = some r ∧
      (exRun eig δ K err H (K - 1) (exBegin eig δ dim (normalize ℂ v) (H (normalize ℂ v)) (RCLike.re (inner ℂ (normalize ℂ v) (H (normalize ℂ v)))))).res = some r := by
  unfold expSolveMpi exBegin
  refine exRun_ok hE K (K - 1) 0 _ _ _ _ (by omega) (by omega) (by omega) ⟨rfl, rfl, rfl, rfl, rfl, fun i hi => ?_, fun i hi => by omega, fun i hi => by omega⟩ rfl ?_
  · obtain rfl : i = 0 := by omega
    rfl
  · unfold kResid
    rw [if_pos (by rfl)]
    rfl

end
end Verif.Algo
