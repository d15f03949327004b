import Verif.Algo.LanczosNum
import Mathlib.Algebra.Order.Monoid.Unbundled.WithTop
import Mathlib.Analysis.Normed.Operator.LinearIsometry
/-
The Lanczos solver of the parallel DMRG master as a machine that is given one product after the other (lanczos_dmrg_solver_mpi_master.h:44-166), and the
fact that it computes what `gsSolve` computes. `⊤` stands for an undefined tensor or number, `none` for a run that has used one.
-/
namespace Verif.Algo
open Function

/-- `m`, `bases`, `a`, `b`, `energy0`, `eff_ham_eff_dim`, and the result once there is one. -/
structure LzM (V : Type) where
  m : Nat
  bs : Nat → V
  a : Nat → ℝ
  b : Nat → ℝ
  e : ℝ
  dim : Nat
  res : Option (GsRes V)

section
variable (𝕜 : Type) {V : Type} [RCLike 𝕜] [NormedAddCommGroup V] [InnerProductSpace 𝕜 V]

open Classical in
/-- The loop from its beginning to the next product (lanczos_dmrg_solver_mpi_master.h:94-131), `γ` after `LinearCombine`. -/
noncomputable def lzRound (tri : TriSolver) (s : LzM V) (γ : V) : LzM V :=
  if ‖γ‖ = 0 then
    { s with res := some (if s.m + 1 = 1 then ⟨s.m + 1, s.e, s.bs 0⟩ else ⟨s.m + 1, s.e, combine 𝕜 (s.m + 1) (tri s.a s.b (s.m + 1)).2 s.bs⟩) }
  else { s with m := s.m + 1, bs := update s.bs (s.m + 1) (normalize 𝕜 γ), b := update s.b s.m ‖γ‖ }

/-- From the first product `x` of the normalised state `v` on (lanczos_dmrg_solver_mpi_master.h:80-131). -/
noncomputable def lzBegin (tri : TriSolver) (dim : Nat) (v x : V) (a0 : ℝ) : LzM V :=
  lzRound 𝕜 tri ⟨0, fun _ => v, fun i => if i = 0 then a0 else 0, fun _ => 0, a0, dim, none⟩ (x - (a0 : 𝕜) • v)

open Classical in
/-- From the product `x` of `bases[m]` with overlap `ov` on (lanczos_dmrg_solver_mpi_master.h:138-164 and the beginning of the next round). -/
noncomputable def lzNext (tri : TriSolver) (K : Nat) (err : ℝ) (s : LzM V) (x : V) (ov : ℝ) : LzM V :=
  let a := update s.a s.m ov
  let e := (tri a s.b (s.m + 1)).1
  if s.e - e < err ∨ s.m = s.dim ∨ s.m = K - 1 then
    { s with a := a, e := e, res := some ⟨s.m + 1, e, combine 𝕜 (s.m + 1) (tri a s.b (s.m + 1)).2 s.bs⟩ }
  else lzRound 𝕜 tri { s with a := a, e := e } (x - (ov : 𝕜) • s.bs s.m - (s.b (s.m - 1) : 𝕜) • s.bs (s.m - 1))

/-- The same with undefined arguments. -/
noncomputable def lzTakeO (tri : TriSolver) (K : Nat) (err : ℝ) : Option (LzM V) → WithTop V → WithTop ℝ → Option (LzM V)
  | some s, some x, some ov => some (lzNext 𝕜 tri K err s x ov)
  | _, _, _ => none

end

/-- The state to be multiplied next. -/
def lzVecO {V : Type} : Option (LzM V) → Option (WithTop V)
  | some s => if s.res.isSome then none else some (s.bs s.m : V)
  | none => none

/-- `Real` of the contraction with the conjugate (lanczos_dmrg_solver_mpi_master.h:80-87, dmrg_mpi_impl_slave.h:464-470). -/
noncomputable def ovlO (𝕜 : Type) {V : Type} [RCLike 𝕜] [NormedAddCommGroup V] [InnerProductSpace 𝕜 V] : WithTop V → WithTop V → WithTop ℝ
  | none, _ => 0
  | some v, x => WithTop.map (fun x => RCLike.re (inner 𝕜 v x)) x

section
variable {𝕜 V : Type} [RCLike 𝕜] [NormedAddCommGroup V] [InnerProductSpace 𝕜 V]

theorem ovlO_zero (v : WithTop V) : ovlO 𝕜 v 0 = 0 := by
  cases v with
  | top => rfl
  | coe v =>
    show ((RCLike.re (inner 𝕜 v (0 : V)) : ℝ) : WithTop ℝ) = 0
    rw [inner_zero_right, map_zero]
    rfl

theorem ovlO_add (v x y : WithTop V) : ovlO 𝕜 v (x + y) = ovlO 𝕜 v x + ovlO 𝕜 v y := by
  cases v with
  | top => exact (add_zero _).symm
  | coe v =>
    cases x with
    | top => rfl
    | coe x =>
      cases y with
      | top => rfl
      | coe y =>
        show ((RCLike.re (inner 𝕜 v (x + y)) : ℝ) : WithTop ℝ) = ((RCLike.re (inner 𝕜 v x) + RCLike.re (inner 𝕜 v y) : ℝ) : WithTop ℝ)
        rw [inner_add_right, map_add]

/-- The loop. -/
noncomputable def lzLoopO (tri : TriSolver) (K : Nat) (err : ℝ) (H : WithTop V → WithTop V) : Nat → Option (LzM V) → Option (Option (LzM V))
  | 0, l =>
    match lzVecO l with
    | none => some l
    | some _ => none
  | n + 1, l =>
    match lzVecO l with
    | none => some l
    | some v => lzLoopO tri K err H n (lzTakeO 𝕜 tri K err l (H v) (ovlO 𝕜 v (H v)))

/-- The run ends, whatever the products are. -/
theorem lzLoopO_stops {tri : TriSolver} {K : Nat} (hK : 1 ≤ K) {err : ℝ} (H : WithTop V → WithTop V) : ∀ n (l : Option (LzM V)),
    (∀ s, l = some s → s.res = none → s.m ≤ K - 1 ∧ K ≤ n + s.m) → ∃ r, lzLoopO (𝕜 := 𝕜) tri K err H n l = some r := by
  intro n
  induction n with
  | zero =>
    intro l hl
    cases h : lzVecO l with
    | none => exact ⟨l, by simp only [lzLoopO, h]⟩
    | some v =>
      exfalso
      cases l with
      | none => cases h
      | some s =>
        unfold lzVecO at h
        simp only [] at h
        split at h
        · cases h
        · rename_i hr
          obtain ⟨h1, h2⟩ := hl s rfl (by simpa using hr)
          omega
  | succ n ih =>
    intro l hl
    cases h : lzVecO l with
    | none => exact ⟨l, by simp only [lzLoopO, h]⟩
    | some v =>
      simp only [lzLoopO, h]
      refine ih _ fun s' hs' hn => ?_
      cases l with
      | none => cases h
      | some s =>
        have hr : s.res = none := by
          unfold lzVecO at h
          simp only [] at h
          split at h
          · cases h
          · rename_i hr; simpa using hr
        obtain ⟨h1, h2⟩ := hl s rfl hr
        generalize H v = x at hs'
        generalize ovlO 𝕜 v x = ov at hs'
        cases x with
        | top => cases hs'
        | coe x =>
          cases ov with
          | top => cases hs'
          | coe ov =>
            have e : lzNext 𝕜 tri K err s x ov = s' := Option.some.inj hs'
            subst e
            unfold lzNext at hn ⊢
            simp only [] at hn ⊢
            split at hn
            · cases hn
            · rename_i hc
              rw [if_neg hc]
              unfold lzRound at hn ⊢
              simp only [] at hn ⊢
              split at hn
              · cases hn
              · rename_i hg
                rw [if_neg hg]
                simp only [not_or] at hc
                have h3 := hc.2.2
                simp only []
                omega

end

/-- **Specification**: the tridiagonal solver only reads the entries of the matrix of the given size. -/
def TriLocal (tri : TriSolver) : Prop := ∀ a a' b b' n, (∀ i, i < n → a i = a' i) → (∀ i, i + 1 < n → b i = b' i) → tri a b n = tri a' b' n

section
variable {𝕜 U V : Type} [RCLike 𝕜] [NormedAddCommGroup U] [InnerProductSpace 𝕜 U] [NormedAddCommGroup V] [InnerProductSpace 𝕜 V]
  (ι : U →ₗᵢ[𝕜] V) (h : U →ₗ[𝕜] U) (u0 : U) {tri : TriSolver} {K dim : Nat} {err : ℝ}

/-- The image of a result. -/
def GsRes.map (r : GsRes U) (f : U → V) : GsRes V := ⟨r.iters, r.energy, f r.vec⟩

theorem combine_map (n : Nat) (x : Nat → ℝ) (bs : Nat → U) (bs' : Nat → V) (hb : ∀ i, i < n → bs' i = ι (bs i)) : combine 𝕜 n x bs' = ι (combine 𝕜 n x bs) := by
  unfold combine
  rw [map_list_sum, List.map_map]
  congr 1
  refine List.map_congr_left fun i hi => ?_
  rw [hb i (List.mem_range.1 hi)]
  exact (map_smul ι _ _).symm

theorem normalize_map (u : U) : normalize 𝕜 (ι u) = ι (normalize 𝕜 u) := by
  unfold normalize
  rw [ι.norm_map, map_smul]

/-- What the machine holds when `m` rounds are over and the product of `bases[m]` is needed. -/
structure LzInv (dim : Nat) (s : LzM V) (m : Nat) (e : ℝ) : Prop where
  rm : s.m = m
  re : s.e = e
  res : s.res = none
  rdim : s.dim = dim
  bs : ∀ i, i ≤ m → s.bs i = ι (krylov h u0 i).cur
  a : ∀ i, i < m → s.a i = kDiag h (krylov h u0 i)
  b : ∀ i, i < m → s.b i = (krylov h u0 (i + 1)).β

variable {ι h u0}

/-- The rest of a round. -/
theorem lzRound_ok (hT : TriLocal tri) {s : LzM V} {m : Nat} {e : ℝ} (hs : LzInv ι h u0 dim s m e) (ha : s.a m = kDiag h (krylov h u0 m)) {γ : V}
    (hγ : γ = ι (kResid h (m == 0) (krylov h u0 m))) :
    if (krylov h u0 (m + 1)).β = 0 then
      (lzRound 𝕜 tri s γ).res = some (GsRes.map (if m + 1 = 1 then ⟨m + 1, e, (krylov h u0 0).cur⟩ else
        ⟨m + 1, e, combine 𝕜 (m + 1) (tri (fun i => kDiag h (krylov h u0 i)) (fun i => (krylov h u0 (i + 1)).β) (m + 1)).2 fun i => (krylov h u0 i).cur⟩) ι)
    else LzInv ι h u0 dim (lzRound 𝕜 tri s γ) (m + 1) e ∧ ∀ i, i < m + 1 → (lzRound 𝕜 tri s γ).a i = s.a i := by
  have hn : ‖γ‖ = (krylov h u0 (m + 1)).β := by rw [hγ, ι.norm_map]; rfl
  have ha' : ∀ i, i < m + 1 → s.a i = kDiag h (krylov h u0 i) := fun i hi => by
    rcases Nat.lt_or_ge i m with h1 | h1
    · exact hs.a i h1
    · rw [show i = m by omega]; exact ha
  split
  · rename_i hz
    unfold lzRound
    rw [if_pos (hn.trans hz)]
    simp only [hs.rm, hs.re]
    congr 1
    split
    · exact congrArg (GsRes.mk (m + 1) e) (hs.bs 0 (Nat.zero_le m))
    · unfold GsRes.map
      simp only [GsRes.mk.injEq, true_and]
      rw [hT s.a _ s.b _ (m + 1) ha' fun i hi => hs.b i (by omega)]
      exact combine_map ι _ _ _ _ fun i hi => hs.bs i (by omega)
  · rename_i hz
    unfold lzRound
    rw [if_neg (fun h0 => hz (hn.symm.trans h0))]
    refine ⟨⟨by simp only [hs.rm], hs.re, hs.res, hs.rdim, fun i hi => ?_, ha', fun i hi => ?_⟩, fun i _ => rfl⟩
    · simp only [hs.rm]
      by_cases hm : i = m + 1
      · subst hm
        rw [update_self, hγ, normalize_map]
        rfl
      · rw [update_of_ne hm]
        exact hs.bs i (by omega)
    · simp only [hs.rm]
      by_cases hm : i = m
      · subst hm
        rw [update_self, hn]
      · rw [update_of_ne hm]
        exact hs.b i (by omega)

variable {H : WithTop V → WithTop V}

/-- The loop computes what `gsLoop` computes. -/
theorem lzLoopO_ok (hT : TriLocal tri) (hH : ∀ x : U, H ((ι x : V) : WithTop V) = ((ι (h x) : V) : WithTop V)) :
    ∀ (fuel n m : Nat) (e : ℝ) (s : LzM V) (γ : V) (r : GsRes U), fuel ≤ n → gsLoop h u0 tri K dim err fuel m e = some r →
      LzInv ι h u0 dim s m e → s.a m = kDiag h (krylov h u0 m) → γ = ι (kResid h (m == 0) (krylov h u0 m)) →
      ∃ s', lzLoopO (𝕜 := 𝕜) tri K err H n (some (lzRound 𝕜 tri s γ)) = some (some s') ∧ s'.res = some (r.map ι) := by
  intro fuel
  induction fuel with
  | zero => intro n m e s γ r _ h0; cases h0
  | succ fuel ih =>
    intro n m e s γ r hf hr hs ha hγ
    have hround := lzRound_ok hT hs ha hγ
    have done : ∀ n (s' : LzM V), s'.res.isSome → lzLoopO (𝕜 := 𝕜) tri K err H n (some s') = some (some s') := fun n s' hs' => by
      have : lzVecO (some s') = none := if_pos hs'
      cases n <;> simp only [lzLoopO, this]
    unfold gsLoop at hr
    simp only [] at hr
    split at hr
    · rename_i hz
      rw [if_pos hz] at hround
      refine ⟨_, done _ _ (by rw [hround]; rfl), ?_⟩
      rw [hround]
      congr 2
      split at hr <;> rename_i h1
      · rw [if_pos h1]; exact Option.some.inj hr
      · rw [if_neg h1]; exact Option.some.inj hr
    · rename_i hz
      rw [if_neg hz] at hround
      obtain ⟨hi, hi2⟩ := hround
      generalize lzRound 𝕜 tri s γ = s1 at hi hi2
      have hv : lzVecO (some s1) = some ((ι (krylov h u0 (m + 1)).cur : V) : WithTop V) := by
        show (if s1.res.isSome then none else some ((s1.bs s1.m : V) : WithTop V)) = _
        rw [hi.res, if_neg (by simp), hi.rm, hi.bs _ (le_refl _)]
      have hov : ovlO 𝕜 ((ι (krylov h u0 (m + 1)).cur : V) : WithTop V) ((ι (h (krylov h u0 (m + 1)).cur) : V) : WithTop V) =
          ((kDiag h (krylov h u0 (m + 1)) : ℝ) : WithTop ℝ) := by
        show ((RCLike.re (inner 𝕜 (ι _) (ι _)) : ℝ) : WithTop ℝ) = _
        rw [ι.inner_map_map]
        rfl
      have htri : tri (update s1.a s1.m (kDiag h (krylov h u0 (m + 1)))) s1.b (s1.m + 1) =
          tri (fun i => kDiag h (krylov h u0 i)) (fun i => (krylov h u0 (i + 1)).β) (m + 1 + 1) := by
        rw [hi.rm]
        refine hT _ _ _ _ _ (fun i h1 => ?_) fun i h1 => hi.b i (by omega)
        by_cases hm : i = m + 1
        · subst hm; rw [update_self]
        · rw [update_of_ne hm]; exact hi.a i (by omega)
      have hstep : ∀ n, lzLoopO (𝕜 := 𝕜) tri K err H (n + 1) (some s1) =
          lzLoopO (𝕜 := 𝕜) tri K err H n (some (lzNext 𝕜 tri K err s1 (ι (h (krylov h u0 (m + 1)).cur)) (kDiag h (krylov h u0 (m + 1))))) := fun n => by
        simp only [lzLoopO, hv, hH, hov]
        rfl
      split at hr
      · rename_i hc
        obtain rfl := Option.some.inj hr
        have hc' : s1.e - (tri (update s1.a s1.m (kDiag h (krylov h u0 (m + 1)))) s1.b (s1.m + 1)).1 < err ∨ s1.m = s1.dim ∨ s1.m = K - 1 := by
          rw [htri, hi.re, hi.rm, hi.rdim]; exact hc
        cases n with
        | zero => omega
        | succ n =>
          refine ⟨_, (hstep n).trans (done _ _ ?_), ?_⟩
          · unfold lzNext; simp only []; rw [if_pos hc']; rfl
          · unfold lzNext; simp only []; rw [if_pos hc']
            simp only [htri]
            rw [hi.rm]
            congr 2
            exact combine_map ι _ _ _ _ fun i h1 => hi.bs i (by omega)
      · rename_i hc
        have hc' : ¬ (s1.e - (tri (update s1.a s1.m (kDiag h (krylov h u0 (m + 1)))) s1.b (s1.m + 1)).1 < err ∨ s1.m = s1.dim ∨ s1.m = K - 1) := by
          rw [htri, hi.re, hi.rm, hi.rdim]; exact hc
        cases n with
        | zero => omega
        | succ n =>
          rw [hstep n]
          unfold lzNext
          simp only []
          rw [if_neg hc']
          refine ih n (m + 1) _ _ _ r (by omega) hr ⟨hi.rm, by rw [htri], hi.res, hi.rdim, hi.bs, fun i h1 => ?_, hi.b⟩ ?_ ?_
          · simp only [hi.rm]
            rw [update_of_ne (by omega)]
            exact hi.a i h1
          · simp only [hi.rm]
            rw [update_self]
          · rw [hi.rm, hi.bs _ (le_refl _), show m + 1 - 1 = m from rfl, hi.bs m (by omega), hi.b m (by omega)]
            unfold kResid
            rw [if_neg (by simp), map_sub, map_sub, map_smul, map_smul]
            rfl

end
end Verif.Algo
