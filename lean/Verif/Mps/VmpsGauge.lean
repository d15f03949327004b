import Verif.Mps.DmrgGauge
/-
The changes of gauge at the ends of the chain in front of the variational optimisation with dense environments (vmps_init.h): they keep the environments of blocks
that contain both sites, and the state.
-/
namespace Verif.Mps
open Finset Verif.Disk Verif.Algo Verif.Props

section
variable {σ 𝕜 : Type} [RCLike 𝕜] [Fintype σ] [DecidableEq σ]

/-- The same algorithm as `vmpsAlg`. In `UpdateSiteRenvs` (vmps_init.h:343-357) the legs contracted have one dimension; `vmpsAlg` reads it off the environment, here it is read off the
tensor. On a closed chain this is the same number (`renv_tn`). -/
noncomputable def tnAlg (N : Nat) (P : VmpsPar σ 𝕜) : Alg (LTen σ 𝕜) (Env3 𝕜) :=
  { vmpsAlg N P with growR := fun i e t => siteRenv (P.w i) ⟨t.ten.r, e.d1, t.ten.r, e.v⟩ t.ten }

/-- `CheckAndUpdateBoundaryMPSTensors` (vmps_init.h:141-252) as two changes of gauge, with the QR decomposition, the order of the fused legs and the maximal bond dimension
as parameters. -/
def vmpsG (qr : Ten σ 𝕜 → Ten σ 𝕜 × Mat 𝕜) (fuse : (l : Nat) → Fin l × σ ≃ Fin (l * Fintype.card σ)) (dmax : Nat) : Gauge (LTen σ 𝕜) where
  gl _ t u := (⟨(boundaryL qr fuse dmax t.ten u.ten).1, t.e0⟩, ⟨(boundaryL qr fuse dmax t.ten u.ten).2, u.e0⟩)
  gr _ t u := (⟨(boundaryR qr fuse dmax t.ten u.ten).1, t.e0⟩, ⟨(boundaryR qr fuse dmax t.ten u.ten).2, u.e0⟩)

variable {N : Nat} {P : VmpsPar σ 𝕜}

theorem lenv_step (A : Alg (LTen σ 𝕜) (Env3 𝕜)) (ψ : Nat → LTen σ 𝕜) (k : Nat) : A.lenv ψ (k + 1) = A.growL k (A.lenv ψ k) (ψ k) := rfl

theorem renv_step (A : Alg (LTen σ 𝕜) (Env3 𝕜)) (ψ : Nat → LTen σ 𝕜) (k : Nat) : A.renv N ψ (k + 1) = A.growR (N - 1 - k) (A.renv N ψ k) (ψ (N - 1 - k)) := rfl

theorem tn_growL (i : Nat) (e : Env3 𝕜) (t : LTen σ 𝕜) : (tnAlg N P).growL i e t = (vmpsAlg N P).growL i e t := rfl

theorem tn_growR (i : Nat) (e : Env3 𝕜) (t : LTen σ 𝕜) : (tnAlg N P).growR i e t = siteRenv (P.w i) ⟨t.ten.r, e.d1, t.ten.r, e.v⟩ t.ten := rfl

theorem vm_growR (i : Nat) (e : Env3 𝕜) (t : LTen σ 𝕜) : (vmpsAlg N P).growR i e t = siteRenv (P.w i) e t.ten := rfl

theorem lenv_base (A : Alg (LTen σ 𝕜) (Env3 𝕜)) (ψ : Nat → LTen σ 𝕜) : A.lenv ψ 0 = A.trivL (ψ 0) := rfl

theorem renv_base (A : Alg (LTen σ 𝕜) (Env3 𝕜)) (ψ : Nat → LTen σ 𝕜) : A.renv N ψ 0 = A.trivR (ψ (N - 1)) := rfl

theorem tn_trivL (t : LTen σ 𝕜) : (tnAlg N P).trivL t = (vmpsAlg N P).trivL t := rfl

theorem tn_trivR (t : LTen σ 𝕜) : (tnAlg N P).trivR t = (vmpsAlg N P).trivR t := rfl

theorem lenv_tn (ψ : Nat → LTen σ 𝕜) (k : Nat) : (tnAlg N P).lenv ψ k = (vmpsAlg N P).lenv ψ k := by
  induction k with
  | zero => rw [lenv_base, lenv_base, tn_trivL]
  | succ k ih => rw [lenv_step, lenv_step, tn_growL, ih]

/-- On a closed chain the environments are the same. -/
theorem renv_tn {ψ : Nat → LTen σ 𝕜} (h : Closed N (tens ψ)) (k : Nat) (hk : k < N) : (tnAlg N P).renv N ψ k = (vmpsAlg N P).renv N ψ k := by
  induction k with
  | zero => rw [renv_base, renv_base, tn_trivR]
  | succ k ih =>
    rw [renv_step, renv_step, tn_growR, vm_growR, ih (by omega)]
    have hd : ((vmpsAlg N P).renv N ψ k).d0 = (ψ (N - 1 - k)).ten.r ∧ ((vmpsAlg N P).renv N ψ k).d2 = (ψ (N - 1 - k)).ten.r := by
      cases k with
      | zero => rw [renv_base]; exact ⟨rfl, rfl⟩
      | succ k =>
        have := h.2.2 (N - 1 - (k + 1)) (by omega)
        rw [show N - 1 - (k + 1) + 1 = N - 1 - k by omega] at this
        rw [renv_step, vm_growR]
        exact ⟨this.symm, this.symm⟩
    generalize (vmpsAlg N P).renv N ψ k = E at hd ⊢
    obtain ⟨d0, d1, d2, v⟩ := E
    obtain ⟨h0, h2⟩ := hd
    simp only at h0 h2
    rw [← h2]
    congr 2
    omega

omit [DecidableEq σ] in
theorem reorder7 (A B C D : Nat) (F : σ → σ → Nat → Nat → Nat → Nat → Nat → 𝕜) :
    ∑ s, ∑ s', ∑ a ∈ range A, ∑ c ∈ range B, ∑ b ∈ range C, ∑ j ∈ range D, ∑ j' ∈ range D, F s s' a c b j j' =
      ∑ j ∈ range D, ∑ j' ∈ range D, ∑ s, ∑ s', ∑ a ∈ range A, ∑ c ∈ range B, ∑ b ∈ range C, F s s' a c b j j' := by
  have r : ∀ {α : Type} (S : Finset α) (G : α → Nat → Nat → 𝕜), ∑ x ∈ S, ∑ j ∈ range D, ∑ j' ∈ range D, G x j j' = ∑ j ∈ range D, ∑ j' ∈ range D, ∑ x ∈ S, G x j j' := by
    intro α S G
    rw [Finset.sum_comm]
    exact sum_congr rfl fun j _ => Finset.sum_comm
  rw [← r univ]
  refine sum_congr rfl fun s _ => ?_
  rw [← r univ]
  refine sum_congr rfl fun s' _ => ?_
  rw [← r (range A)]
  refine sum_congr rfl fun a _ => ?_
  rw [← r (range B)]
  exact sum_congr rfl fun c _ => r _ _

omit [Fintype σ] [DecidableEq σ] in
theorem env3_ext {a b c a' c' : Nat} {v v' : Nat → Nat → Nat → 𝕜} (h1 : a = a') (h2 : c = c') (h : v = v') : (⟨a, b, c, v⟩ : Env3 𝕜) = ⟨a', b, c', v'⟩ := by
  subst h1 h2 h; rfl

omit [DecidableEq σ] in
/-- Growing a right environment over both sites. -/
theorem grow_two_env {t u p q : Ten σ 𝕜} {M : Mat 𝕜} (h : RG t u p q M) (w w' : Ten (σ × σ) 𝕜) (e : Env3 𝕜) :
    siteRenv w ⟨p.r, w'.l, p.r, (siteRenv w' ⟨q.r, e.d1, q.r, e.v⟩ q).v⟩ p = siteRenv w ⟨t.r, w'.l, t.r, (siteRenv w' ⟨u.r, e.d1, u.r, e.v⟩ u).v⟩ t := by
  have b1 : ∀ k c k', k < u.l → k' < u.l → (siteRenv w' ⟨u.r, e.d1, u.r, e.v⟩ u).v k c k' =
      ∑ j ∈ range q.l, ∑ j' ∈ range q.l, star (M k j) * M k' j' * (siteRenv w' ⟨q.r, e.d1, q.r, e.v⟩ q).v j c j' := by
    intro k c k' hk hk'
    show ∑ s, ∑ s', ∑ a' ∈ range u.r, ∑ c' ∈ range e.d1, ∑ b' ∈ range u.r, star (u.v s k a') * w'.v (s, s') c c' * u.v s' k' b' * e.v a' c' b' =
      ∑ j ∈ range q.l, ∑ j' ∈ range q.l, star (M k j) * M k' j' *
        ∑ s, ∑ s', ∑ a' ∈ range q.r, ∑ c' ∈ range e.d1, ∑ b' ∈ range q.r, star (q.v s j a') * w'.v (s, s') c c' * q.v s' j' b' * e.v a' c' b'
    rw [h.qr]
    have e1 : ∀ s s', ∀ a' ∈ range u.r, ∀ c' ∈ range e.d1, ∀ b' ∈ range u.r, star (u.v s k a') * w'.v (s, s') c c' * u.v s' k' b' * e.v a' c' b' =
        ∑ j ∈ range q.l, ∑ j' ∈ range q.l, star (M k j) * M k' j' * (star (q.v s j a') * w'.v (s, s') c c' * q.v s' j' b' * e.v a' c' b') := by
      intro s s' a' ha' c' _ b' hb'
      rw [h.u s k a' hk (mem_range.1 ha'), h.u s' k' b' hk' (mem_range.1 hb'), star_sum, Finset.sum_mul, Finset.sum_mul_sum, Finset.sum_mul]
      refine sum_congr rfl fun j _ => ?_
      rw [Finset.sum_mul]
      exact sum_congr rfl fun j' _ => by rw [star_mul']; ring
    rw [sum_congr rfl fun s _ => sum_congr rfl fun s' _ => sum_congr rfl fun a' ha' => sum_congr rfl fun c' hc' => sum_congr rfl (e1 s s' a' ha' c' hc')]
    simp only [Finset.mul_sum]
    exact reorder7 _ _ _ _ _
  refine env3_ext h.pl h.pl ?_
  funext a c b
  set X : Nat → Nat → Nat → 𝕜 := (siteRenv w' ⟨q.r, e.d1, q.r, e.v⟩ q).v with hX
  set Y : Nat → Nat → Nat → 𝕜 := (siteRenv w' ⟨u.r, e.d1, u.r, e.v⟩ u).v with hY
  show ∑ s, ∑ s', ∑ a' ∈ range p.r, ∑ c' ∈ range w'.l, ∑ b' ∈ range p.r, star (p.v s a a') * w.v (s, s') c c' * p.v s' b b' * X a' c' b' =
    ∑ s, ∑ s', ∑ a' ∈ range t.r, ∑ c' ∈ range w'.l, ∑ b' ∈ range t.r, star (t.v s a a') * w.v (s, s') c c' * t.v s' b b' * Y a' c' b'
  refine sum_congr rfl fun s _ => sum_congr rfl fun s' _ => ?_
  have b2 : ∀ k c k', k < t.r → k' < t.r → Y k c k' = ∑ j ∈ range p.r, ∑ j' ∈ range p.r, star (M k j) * M k' j' * X j c j' := by
    intro k c k' hk hk'
    rw [h.pq]
    exact b1 k c k' (by rw [← h.tu]; exact hk) (by rw [← h.tu]; exact hk')
  have e2 : ∀ a' ∈ range p.r, ∀ c' ∈ range w'.l, ∀ b' ∈ range p.r, star (p.v s a a') * w.v (s, s') c c' * p.v s' b b' * X a' c' b' =
      ∑ k ∈ range t.r, ∑ k' ∈ range t.r, star (t.v s a k) * w.v (s, s') c c' * t.v s' b k' * (star (M k a') * M k' b' * X a' c' b') := by
    intro a' _ c' _ b' _
    rw [h.p, h.p, star_sum, Finset.sum_mul, Finset.sum_mul_sum, Finset.sum_mul]
    refine sum_congr rfl fun j _ => ?_
    rw [Finset.sum_mul]
    exact sum_congr rfl fun j' _ => by rw [star_mul']; ring
  rw [sum_congr rfl fun a' ha' => sum_congr rfl fun c' hc' => sum_congr rfl (e2 a' ha' c' hc')]
  have e3 : ∀ k ∈ range t.r, ∀ c' ∈ range w'.l, ∀ k' ∈ range t.r, star (t.v s a k) * w.v (s, s') c c' * t.v s' b k' * Y k c' k' =
      ∑ a' ∈ range p.r, ∑ b' ∈ range p.r, star (t.v s a k) * w.v (s, s') c c' * t.v s' b k' * (star (M k a') * M k' b' * X a' c' b') := by
    intro k hk c' _ k' hk'
    rw [b2 k c' k' (mem_range.1 hk) (mem_range.1 hk')]
    simp only [Finset.mul_sum]
  rw [sum_congr rfl fun k hk => sum_congr rfl fun c' hc' => sum_congr rfl (e3 k hk c' hc')]
  -- both sides are sums over `a', c', b', k, k'` in different orders
  rw [Finset.sum_comm, Finset.sum_comm (s := range t.r) (t := range w'.l)]
  refine sum_congr rfl fun c' _ => ?_
  rw [sum_congr rfl fun a' _ => Finset.sum_comm, Finset.sum_comm]
  refine sum_congr rfl fun k _ => ?_
  rw [sum_congr rfl fun a' _ => Finset.sum_comm, Finset.sum_comm]

theorem vmpsG_laws {qr : Ten σ 𝕜 → Ten σ 𝕜 × Mat 𝕜} (H : QRSpec qr) (fuse : (l : Nat) → Fin l × σ ≃ Fin (l * Fintype.card σ)) (dmax : Nat) :
    (vmpsG qr fuse dmax).Laws (tnAlg N P) where
  ll := fun i t u => by
    show unitEnv (boundaryL qr fuse dmax t.ten u.ten).1.l (P.w 0).l (boundaryL qr fuse dmax t.ten u.ten).1.l = unitEnv t.ten.l (P.w 0).l t.ten.l
    by_cases h : t.ten.r = u.ten.l
    · obtain ⟨M, g, -⟩ := boundaryL_lg H fuse dmax h
      rw [g.pl]
    · unfold boundaryL; rw [if_neg h]
  lr := fun i t u => by
    show unitEnv (boundaryL qr fuse dmax t.ten u.ten).2.r (P.w (N - 1)).r (boundaryL qr fuse dmax t.ten u.ten).2.r = unitEnv u.ten.r (P.w (N - 1)).r u.ten.r
    by_cases h : t.ten.r = u.ten.l
    · obtain ⟨M, g, -⟩ := boundaryL_lg H fuse dmax h
      rw [g.qr]
    · unfold boundaryL; rw [if_neg h]
  rl := fun i t u => by
    show unitEnv (boundaryR qr fuse dmax t.ten u.ten).1.l (P.w 0).l (boundaryR qr fuse dmax t.ten u.ten).1.l = unitEnv t.ten.l (P.w 0).l t.ten.l
    by_cases h : t.ten.r = u.ten.l
    · obtain ⟨M, g, -⟩ := boundaryR_rg H fuse dmax h
      rw [g.pl]
    · unfold boundaryR; rw [if_neg h]
  rr := fun i t u => by
    show unitEnv (boundaryR qr fuse dmax t.ten u.ten).2.r (P.w (N - 1)).r (boundaryR qr fuse dmax t.ten u.ten).2.r = unitEnv u.ten.r (P.w (N - 1)).r u.ten.r
    by_cases h : t.ten.r = u.ten.l
    · obtain ⟨M, g, -⟩ := boundaryR_rg H fuse dmax h
      rw [g.qr]
    · unfold boundaryR; rw [if_neg h]
  env := fun i e t u => by
    rw [tn_growR, tn_growR, tn_growR, tn_growR]
    show siteRenv (P.w (i - 1)) ⟨(boundaryR qr fuse dmax t.ten u.ten).1.r, (P.w i).l, (boundaryR qr fuse dmax t.ten u.ten).1.r,
        (siteRenv (P.w i) ⟨(boundaryR qr fuse dmax t.ten u.ten).2.r, e.d1, (boundaryR qr fuse dmax t.ten u.ten).2.r, e.v⟩ (boundaryR qr fuse dmax t.ten u.ten).2).v⟩
        (boundaryR qr fuse dmax t.ten u.ten).1 =
      siteRenv (P.w (i - 1)) ⟨t.ten.r, (P.w i).l, t.ten.r, (siteRenv (P.w i) ⟨u.ten.r, e.d1, u.ten.r, e.v⟩ u.ten).v⟩ t.ten
    by_cases h : t.ten.r = u.ten.l
    · obtain ⟨M, g, -⟩ := boundaryR_rg H fuse dmax h
      exact grow_two_env g _ _ _
    · unfold boundaryR; rw [if_neg h]

/-- The change of gauge at the ends keeps the state and puts the centre at the first site of the sweeps plus one. -/
theorem vmpsG_canon {qr : Ten σ 𝕜 → Ten σ 𝕜 × Mat 𝕜} (H : QRSpec qr) (fuse : (l : Nat) → Fin l × σ ≃ Fin (l * Fintype.card σ)) (dmax : Nat) {lb rb : Nat} (b1 : lb + 2 ≤ rb)
    (b2 : rb < N) {ψ : Nat → LTen σ 𝕜} {c : Nat} (hc : c ≤ lb + 1) (h : Canon N c (tens ψ)) :
    Canon N (lb + 1) (tens (gauged (vmpsG qr fuse dmax) N lb rb ψ)) ∧ stateV N (tens (gauged (vmpsG qr fuse dmax) N lb rb ψ)) = stateV N (tens ψ) :=
  gauged_canon (P := ⟨fun _ => ⟨0, 0, fun _ _ => none⟩, fun T => (⟨0, 0, fun _ _ _ => 0⟩, ⟨0, 0, fun _ _ _ => 0⟩), fun T => (⟨0, 0, fun _ _ _ => 0⟩, ⟨0, 0, fun _ _ _ => 0⟩), qr, fuse, dmax, fun _ _ _ => (0, fun _ => 0), 0, 0⟩) H b1 b2 hc h

end
end Verif.Mps
