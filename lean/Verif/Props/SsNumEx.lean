import Verif.Props.SsNum
import Verif.Mps.VmpsInst
/-
C77: the hypotheses can be met, and what noise together with truncation can do.
-/
namespace Verif.Props
open Finset Verif.Mps Verif.Disk Verif.Algo

section inst
variable {σ K : Type} [CommRing K] [StarRing K] [Fintype σ] {d : Nat}

open Classical in
/-- At most `D` directions are kept, unless nothing would be left. -/
noncomputable def siteCutR (e : σ ≃ Fin d) (D : Nat) (t : Ten σ K) : Ten σ K × Mat K :=
  if ∃ x a b, a < t.l ∧ b < t.r ∧ ∑ j ∈ range (min D (qrE e t).1.r), (qrE e t).1.v x a j * (qrE e t).2 j b ≠ 0 then (⟨t.l, min D (qrE e t).1.r, (qrE e t).1.v⟩, (qrE e t).2)
  else qrE e t

open Classical in
/-- The same from the right. -/
noncomputable def siteCutL (e : σ ≃ Fin d) (D : Nat) (t : Ten σ K) : Ten σ K × Mat K :=
  if ∃ x a b, a < t.l ∧ b < t.r ∧ ∑ j ∈ range (min D (svdE e t).1.l), (svdE e t).2 a j * (svdE e t).1.v x j b ≠ 0 then (⟨min D (svdE e t).1.l, t.r, (svdE e t).1.v⟩, (svdE e t).2)
  else svdE e t

theorem siteFullR_spec (e : σ ≃ Fin d) : SiteSvdR (qrE (K := K) e) where
  dim := fun _ => rfl
  iso := (qrE_spec e).iso
  proj := fun t j b hj hb => qr_projE (qrE_spec e) t j b hj hb
  nz := fun t ⟨x, a, b, ha, hb, h⟩ => ⟨x, a, b, ha, hb, by rw [← (qrE_spec (K := K) e).fac t x a b ha hb]; exact h⟩

theorem siteFullL_spec (e : σ ≃ Fin d) : SiteSvdL (svdE (K := K) e) where
  dim := fun _ => rfl
  iso := (svdE_spec e).iso
  proj := fun t a j ha hj => svd_proj (svdE_spec e) t a j ha hj
  nz := fun t ⟨x, a, b, ha, hb, h⟩ => ⟨x, a, b, ha, hb, by rw [← (svdE_spec (K := K) e).fac t x a b ha hb]; exact h⟩

theorem siteCutR_spec (e : σ ≃ Fin d) (D : Nat) : SiteSvdR (siteCutR (K := K) e D) := by
  have F := siteFullR_spec (K := K) e
  have cs : ∀ t : Ten σ K, siteCutR e D t = qrE e t ∨ siteCutR e D t = (⟨t.l, min D (qrE e t).1.r, (qrE e t).1.v⟩, (qrE e t).2) := fun t => by
    unfold siteCutR; split <;> simp
  refine ⟨fun t => ?_, fun t => ?_, fun t j b hj hb => ?_, fun t ht => ?_⟩
  · rcases cs t with h | h <;> rw [h] <;> rfl
  · rcases cs t with h | h <;> rw [h]
    · exact F.iso t
    · exact fun x hx y hy => F.iso t x (Nat.lt_of_lt_of_le hx (Nat.min_le_right _ _)) y (Nat.lt_of_lt_of_le hy (Nat.min_le_right _ _))
  · rcases cs t with h | h <;> rw [h] at hj ⊢
    · exact F.proj t j b hj hb
    · exact F.proj t j b (Nat.lt_of_lt_of_le hj (Nat.min_le_right _ _)) hb
  · by_cases h : ∃ x a b, a < t.l ∧ b < t.r ∧ ∑ j ∈ range (min D (qrE e t).1.r), (qrE e t).1.v x a j * (qrE e t).2 j b ≠ 0
    · unfold siteCutR; rw [if_pos h]; exact h
    · unfold siteCutR; rw [if_neg h]; exact F.nz t ht

theorem siteCutL_spec (e : σ ≃ Fin d) (D : Nat) : SiteSvdL (siteCutL (K := K) e D) := by
  have F := siteFullL_spec (K := K) e
  have cs : ∀ t : Ten σ K, siteCutL e D t = svdE e t ∨ siteCutL e D t = (⟨min D (svdE e t).1.l, t.r, (svdE e t).1.v⟩, (svdE e t).2) := fun t => by
    unfold siteCutL; split <;> simp
  refine ⟨fun t => ?_, fun t => ?_, fun t a j ha hj => ?_, fun t ht => ?_⟩
  · rcases cs t with h | h <;> rw [h] <;> rfl
  · rcases cs t with h | h <;> rw [h]
    · exact F.iso t
    · exact fun x hx y hy => F.iso t x (Nat.lt_of_lt_of_le hx (Nat.min_le_right _ _)) y (Nat.lt_of_lt_of_le hy (Nat.min_le_right _ _))
  · rcases cs t with h | h <;> rw [h] at hj ⊢
    · exact F.proj t a j ha hj
    · exact F.proj t a j ha (Nat.lt_of_lt_of_le hj (Nat.min_le_right _ _))
  · by_cases h : ∃ x a b, a < t.l ∧ b < t.r ∧ ∑ j ∈ range (min D (svdE e t).1.l), (svdE e t).2 a j * (svdE e t).1.v x j b ≠ 0
    · unfold siteCutL; rw [if_pos h]; exact h
    · unfold siteCutL; rw [if_neg h]; exact F.nz t ht

end inst

/-- The run on the Ising chain with at most `D` directions kept and no noise. -/
noncomputable def exSsCut (N D : Nat) (tri : TriSolver) : SsPar Bool ℝ := ⟨exIsing N, siteCutR upEnum D, siteCutL upEnum D, tri, 10, 1, fun _ => 0⟩

/-- The run with noise and without truncation. -/
noncomputable def exSsNoise (N : Nat) (tri : TriSolver) : SsPar Bool ℝ := ⟨exIsing N, qrE upEnum, svdE upEnum, tri, 10, 1, fun n => 1 / (n + 1)⟩

theorem exSsCut_ok {N D : Nat} (hN : 2 ≤ N) {tri : TriSolver} (ht : Solves tri) : SsOK N (exSsCut N D tri) :=
  ⟨exIsing_closed hN, herm_of_sym (exIsing_sym N), siteCutR_spec upEnum D, siteCutL_spec upEnum D, ht, by show 2 ≤ 10; omega⟩

theorem exSsNoise_ok {N : Nat} (hN : 2 ≤ N) {tri : TriSolver} (ht : Solves tri) : SsOK N (exSsNoise N tri) :=
  ⟨exIsing_closed hN, herm_of_sym (exIsing_sym N), siteFullR_spec upEnum, siteFullL_spec upEnum, ht, by show 2 ≤ 10; omega⟩

theorem exSsNoise_nocut (N : Nat) (tri : TriSolver) : (exSsNoise N tri).NoCut :=
  ⟨fun t x a b ha hb => ((qrE_spec (K := ℝ) upEnum).fac t x a b ha hb).symm, fun t x a b ha hb => ((svdE_spec (K := ℝ) upEnum).fac t x a b ha hb).symm⟩

/-- On Ising chains of any length from two, the hypotheses of `C77_run` hold for the product state, for a run with truncation to one direction and no noise and for a run with
noise and without truncation. -/
example (N k : Nat) (hN : 2 ≤ N) : ∃ tri, SsOK N (exSsCut N 1 tri) ∧ SsOK N (exSsNoise N tri) ∧ (exSsNoise N tri).NoCut ∧
    Canon N 0 (tens fun _ => (⟨exUp, none⟩ : LTen Bool ℝ)) ∧
    Alive N (exSsCut N 1 tri) (ssUpds N k) (fun _ => ⟨exUp, none⟩, 0) (ssUpds N k).length ∧
    Alive N (exSsNoise N tri) (ssUpds N k) (fun _ => ⟨exUp, none⟩, 0) (ssUpds N k).length ∧
    TempOK1 (ssAlg N (exSsCut N 1 tri)) N false (fun _ => ⟨exUp, none⟩) ⟨fun _ => .whole ⟨exUp, none⟩, fun _ => .gone, fun _ => .gone⟩ := by
  obtain ⟨tri, ht⟩ := solver_exists
  exact ⟨tri, exSsCut_ok hN ht, exSsNoise_ok hN ht, exSsNoise_nocut N tri, exUp_canon N 0,
    C77_alive_silent (exSsCut_ok hN ht) (fun n => by show |(0 : ℝ)| < _; rw [abs_zero]; norm_num) hN k 0 (exUp_canon N 0) (exUp_nz N),
    C77_alive_nocut (exSsNoise_ok hN ht) (exSsNoise_nocut N tri) hN k 0 (exUp_canon N 0) (exUp_nz N), fun h => by cases h⟩

/-! ### Noise and truncation -/

/-- `X` times a number on each of two sites. -/
noncomputable def exXX (c : ℝ) (i : Nat) : Ten (Bool × Bool) ℝ := ⟨1, 1, fun s _ _ => if s.1 = s.2 then 0 else if i = 0 then c else 1⟩

/-- **Specification**: of the directions of the site, the decomposition keeps those of the largest singular value: when something is discarded, no unit vector `z` has
a larger weight in the tensor than all that is kept. -/
def KeepsLargest (t : Ten Bool ℝ) (p : Ten Bool ℝ × Mat ℝ) : Prop :=
  ∀ z : Bool → Nat → ℝ, ∑ x, ∑ a ∈ range t.l, z x a ^ 2 = 1 →
    ∑ b ∈ range t.r, (∑ x, ∑ a ∈ range t.l, z x a * t.v x a b) ^ 2 ≤ ∑ j ∈ range p.1.r, ∑ b ∈ range t.r, p.2 j b ^ 2

/-- Spin down is the direction of the larger singular value. -/
def DownHeavy (t : Ten Bool ℝ) : Prop :=
  t.l = 1 ∧ t.r = 2 ∧ t.v true 0 0 * t.v false 0 0 + t.v true 0 1 * t.v false 0 1 = 0 ∧
    t.v true 0 0 ^ 2 + t.v true 0 1 ^ 2 < t.v false 0 0 ^ 2 + t.v false 0 1 ^ 2

open Classical in
/-- A truncated decomposition: one direction where the singular values are as above, else all. -/
noncomputable def svdOne (t : Ten Bool ℝ) : Ten Bool ℝ × Mat ℝ :=
  if DownHeavy t then (⟨t.l, 1, fun s _ _ => if s then 0 else 1⟩, fun _ b => t.v false 0 b) else qrE upEnum t

theorem svdOne_spec : SiteSvdR svdOne := by
  have F := siteFullR_spec (K := ℝ) upEnum
  refine ⟨fun t => ?_, fun t => ?_, fun t j b hj hb => ?_, fun t ht => ?_⟩
  · unfold svdOne; split <;> rfl
  · unfold svdOne; split
    · rename_i h
      intro x hx y hy
      obtain rfl : x = 0 := by simpa using hx
      obtain rfl : y = 0 := by simpa using hy
      simp [h.1]
    · exact F.iso t
  · unfold svdOne at hj ⊢; split at hj
    · rename_i h
      rw [if_pos h]
      simp [h.1]
    · rename_i h
      rw [if_neg h]
      exact F.proj t j b hj hb
  · unfold svdOne; split
    · rename_i h
      have : t.v false 0 0 ≠ 0 ∨ t.v false 0 1 ≠ 0 := by
        by_contra hc
        push Not at hc
        have h4 := h.2.2.2
        rw [hc.1, hc.2] at h4
        nlinarith [sq_nonneg (t.v true 0 0), sq_nonneg (t.v true 0 1)]
      rcases this with h' | h'
      · exact ⟨false, 0, 0, by rw [h.1]; omega, by rw [h.2.1]; omega, by simpa using h'⟩
      · exact ⟨false, 0, 1, by rw [h.1]; omega, by rw [h.2.1]; omega, by simpa using h'⟩
    · exact F.nz t ht

theorem svdOne_best (t : Ten Bool ℝ) (h : ¬ t.IsR (svdOne t)) : KeepsLargest t (svdOne t) := by
  unfold svdOne at h ⊢
  split at h
  · rename_i hd
    rw [if_pos hd]
    obtain ⟨h1, h2, h3, h4⟩ := hd
    intro z hz
    rw [h1] at hz
    simp only [h1, h2, Fintype.sum_bool, range_one, sum_singleton, sum_range_succ] at hz ⊢
    have e : (z true 0 * t.v true 0 0 + z false 0 * t.v false 0 0) ^ 2 + (z true 0 * t.v true 0 1 + z false 0 * t.v false 0 1) ^ 2 =
        z true 0 ^ 2 * (t.v true 0 0 ^ 2 + t.v true 0 1 ^ 2) + z false 0 ^ 2 * (t.v false 0 0 ^ 2 + t.v false 0 1 ^ 2) +
          2 * z true 0 * z false 0 * (t.v true 0 0 * t.v false 0 0 + t.v true 0 1 * t.v false 0 1) := by ring
    rw [e, h3, mul_zero, add_zero]
    have hb : z false 0 ^ 2 = 1 - z true 0 ^ 2 := by linarith
    rw [hb]
    nlinarith [sq_nonneg (z true 0)]
  · exact absurd (fun x a b ha hb => ((qrE_spec (K := ℝ) upEnum).fac t x a b ha hb).symm) h

/-- The run with noise `ν` at every update. -/
noncomputable def exKill (ν : ℝ) (tri : TriSolver) : SsPar Bool ℝ := ⟨exXX (2 / ν), svdOne, svdE upEnum, tri, 10, 1, fun _ => ν⟩

theorem exKill_ok (ν : ℝ) {tri : TriSolver} (ht : Solves tri) : SsOK 2 (exKill ν tri) := by
  refine ⟨⟨rfl, rfl, fun _ _ => rfl⟩, herm_of_sym fun i x y a b => ?_, svdOne_spec, siteFullL_spec upEnum, ht, by show 2 ≤ 10; omega⟩
  show star (if x = y then (0 : ℝ) else _) = if y = x then (0 : ℝ) else _
  rw [star_trivial]
  simp only [eq_comm]

/-- All spins up, on disk before the run. -/
def exUps : Nat → LTen Bool ℝ := fun _ => ⟨exUp, none⟩

theorem kill_ham (ν : ℝ) (tri : TriSolver) : siteHam ((ssAlg 2 (exKill ν tri)).lenv exUps 0) ((ssAlg 2 (exKill ν tri)).renv 2 exUps 1) (exXX (2 / ν) 0) 1 1 = 0 := by
  have hf : ∀ a c b, ((ssAlg 2 (exKill ν tri)).renv 2 exUps 1).v a c b = 0 := by
    intro a c b
    show ∑ s, ∑ s', ∑ a' ∈ range 1, ∑ c' ∈ range 1, ∑ b' ∈ range 1, star (exUp.v s a a') * (exXX (2 / ν) 1).v (s, s') c c' * exUp.v s' b b' * (unitEnv 1 1 1).v a' c' b' = (0 : ℝ)
    simp [exUp, exXX]
  have hm : (Matrix.of fun i j : Fin 1 × Bool × Fin 1 => effCoef1 ((ssAlg 2 (exKill ν tri)).lenv exUps 0) ((ssAlg 2 (exKill ν tri)).renv 2 exUps 1) (exXX (2 / ν) 0)
      i.1 i.2.1 i.2.2 j.1 j.2.1 j.2.2) = 0 := by
    ext i j
    simp [effCoef1, hf]
  unfold siteHam
  rw [hm, map_zero]

theorem expandR_hi {ν : ℝ} {e : Env3 ℝ} {w : Ten (Bool × Bool) ℝ} {t u : Ten Bool ℝ} {x : Bool} {a b : Nat} (h : ¬ b < t.r) : (expandR ν e w t u).1.v x a b =
    ν * ∑ x', ∑ c ∈ range e.d1, ∑ a' ∈ range e.d2, e.v a c a' * t.v x' a' ((b - t.r) / w.r) * w.v (x, x') c ((b - t.r) % w.r) := by
  simp only [expandR]
  rw [if_neg h]

theorem ssUpd_r {N i : Nat} {P : SsPar Bool ℝ} {ν : ℝ} {e f : Env3 ℝ} {t u : Ten Bool ℝ} {g : GsRes (SiteV Bool ℝ t.l t.r)} (h : ssLanczos P i e f t = some g) :
    ssUpd N P ν .r i e f t u =
      (⟨(ssCutR P (ssExpR N P ν i e (ofS g.vec) u)).1, some g.energy⟩, ⟨(ssCutR P (ssExpR N P ν i e (ofS g.vec) u)).2, some g.energy⟩) := by
  unfold ssUpd
  simp only [h]

/-- **C77** (noise and truncation, the code). For every noise above the threshold there are a Hermitian MPO, exact decompositions that keep the direction of the largest singular value,
and a normalised product state in canonical form, such that the first update leaves the zero state: the expanded tensor contains the noise, the next one zeros for it, and when only a
direction of the noise is kept nothing of the state is. -/
theorem C77_noise_violation {ν : ℝ} (hν : 1e-15 ≤ |ν|) : ∃ P : SsPar Bool ℝ, SsOK 2 P ∧ (∀ n, P.noise n = ν) ∧ (∀ t, ¬ t.IsR (P.svdR t) → KeepsLargest t (P.svdR t)) ∧
    Canon 2 0 (tens exUps) ∧ stateV 2 (tens exUps) ≠ 0 ∧ ssState 2 P (ssUpds 2 1) (exUps, 0) 1 = 0 := by
  obtain ⟨tri, ht⟩ := solver_exists
  refine ⟨exKill ν tri, exKill_ok ν ht, fun _ => rfl, svdOne_best, exUp_canon 2 0, exUp_nz 2, ?_⟩
  have hν0 : ν ≠ 0 := by
    rintro rfl
    rw [abs_zero] at hν
    norm_num at hν
  obtain ⟨v, hvd⟩ : ∃ v : SiteV Bool ℝ 1 1, v = toS exUp := ⟨_, rfl⟩
  have hv1 : v (0, true, 0) = 1 := by rw [hvd]; rfl
  have hv0 : v (0, false, 0) = 0 := by rw [hvd]; rfl
  have hv : v ≠ 0 := by
    rintro rfl
    exact zero_ne_one hv1
  obtain ⟨g, hg, -, -, hn, hk, -⟩ := C57_lanczos (H := siteHam ((ssAlg 2 (exKill ν tri)).lenv exUps 0) ((ssAlg 2 (exKill ν tri)).renv 2 exUps 1) (exXX (2 / ν) 0) 1 1)
    (by rw [kill_ham]; exact LinearMap.IsSymmetric.zero) hv ht (show 2 ≤ 10 by omega) (1 * Fintype.card Bool * 1) 1
  have hs : g.vec ∈ Submodule.span ℝ {v} := by
    refine Submodule.span_le.mpr ?_ hk
    rintro _ ⟨i, -, rfl⟩
    rw [kill_ham]
    cases i with
    | zero => exact Submodule.subset_span rfl
    | succ i => simp
  obtain ⟨c, hc⟩ := Submodule.mem_span_singleton.mp hs
  have hc0 : c ≠ 0 := by
    rintro rfl
    rw [zero_smul] at hc
    rw [← hc, norm_zero] at hn
    exact zero_ne_one hn
  have v1 : (ofS g.vec).v true 0 0 = c := by
    rw [← hc]
    show (if h : 0 < 1 ∧ 0 < 1 then (c • v) (⟨0, h.1⟩, true, ⟨0, h.2⟩) else 0) = c
    rw [dif_pos ⟨by omega, by omega⟩]
    show c * v (0, true, 0) = c
    rw [hv1, mul_one]
  have v0 : (ofS g.vec).v false 0 0 = 0 := by
    rw [← hc]
    show (if h : 0 < 1 ∧ 0 < 1 then (c • v) (⟨0, h.1⟩, false, ⟨0, h.2⟩) else 0) = 0
    rw [dif_pos ⟨by omega, by omega⟩]
    show c * v (0, false, 0) = 0
    rw [hv0, mul_zero]
  have hx : needExpand 2 0 ν 1 (Fintype.card Bool) 1 = true := by
    unfold needExpand
    simp [hν]
  have hl : ssLanczos (exKill ν tri) 0 ((ssAlg 2 (exKill ν tri)).lenv exUps 0) ((ssAlg 2 (exKill ν tri)).renv 2 exUps 1) exUp = some g := by
    subst hvd; exact hg
  have hE : ssExpR 2 (exKill ν tri) ν 0 ((ssAlg 2 (exKill ν tri)).lenv exUps 0) (ofS g.vec) exUp =
      expandR ν ((ssAlg 2 (exKill ν tri)).lenv exUps 0) (exXX (2 / ν) 0) (ofS g.vec) exUp := by
    unfold ssExpR
    exact if_pos hx
  generalize hq : expandR ν ((ssAlg 2 (exKill ν tri)).lenv exUps 0) (exXX (2 / ν) 0) (ofS g.vec) exUp = q at hE
  have ql : q.1.l = 1 := by rw [← hq]; rfl
  have qr : q.1.r = 2 := by rw [← hq]; rfl
  have ul : q.2.l = 2 := by rw [← hq]; rfl
  have q00 : ∀ x, q.1.v x 0 0 = (ofS g.vec).v x 0 0 := fun x => by rw [← hq]; rfl
  have q01 : ∀ x, q.1.v x 0 1 = ν * ∑ x', (ofS g.vec).v x' 0 0 * (exXX (2 / ν) 0).v (x, x') 0 0 := fun x => by
    rw [← hq]
    have d0 : (1 - (ofS g.vec).r) / (exXX (2 / ν) 0).r = 0 := by show (1 - 1) / 1 = 0; norm_num
    have m0 : (1 - (ofS g.vec).r) % (exXX (2 / ν) 0).r = 0 := by show (1 - 1) % 1 = 0; norm_num
    rw [expandR_hi (show ¬ 1 < 1 by omega), d0, m0]
    show ν * ∑ x', ∑ c ∈ range 1, ∑ a' ∈ range 1, (unitEnv 1 1 1).v 0 c a' * (ofS g.vec).v x' a' 0 * (exXX (2 / ν) 0).v (x, x') c 0 = _
    simp [unitEnv]
  have q1t : q.1.v true 0 1 = 0 := by rw [q01]; simp [exXX, v0]
  have q1f : q.1.v false 0 1 = 2 * c := by rw [q01]; simp [exXX, v1]; field_simp
  have qt := q00 true
  have qf := q00 false
  rw [v1] at qt
  rw [v0] at qf
  have hd : DownHeavy q.1 := by
    refine ⟨ql, qr, by rw [qf, q1t]; ring, ?_⟩
    rw [qt, qf, q1t, q1f]
    have : 0 < c ^ 2 := by positivity
    nlinarith
  have hz : ∀ y b, (ssCutR (exKill ν tri) q).2.v y 0 b = 0 := by
    intro y b
    have hsv : (exKill ν tri).svdR q.1 = (⟨q.1.l, 1, fun s _ _ => if s then 0 else 1⟩, fun _ b => q.1.v false 0 b) := if_pos hd
    unfold ssCutR mulL
    rw [hsv, ul]
    have u1 : q.2.v y 1 b = 0 := by rw [← hq]; rfl
    simp [sum_range_succ, qf, u1]
  have r1 : (ssCutR (exKill ν tri) q).1.r = 1 := by
    have hsv : (exKill ν tri).svdR q.1 = (⟨q.1.l, 1, fun s _ _ => if s then 0 else 1⟩, fun _ b => q.1.v false 0 b) := if_pos hd
    unfold ssCutR
    rw [hsv]
  have hU : ∀ i, (tens (ssAt 2 (exKill ν tri) (ssUpds 2 1) (exUps, 0) 1).1 i) =
      if i = 1 then (ssCutR (exKill ν tri) q).2 else if i = 0 then (ssCutR (exKill ν tri) q).1 else exUp := by
    intro i
    have : ssUpd 2 (exKill ν tri) ν .r 0 ((ssAlg 2 (exKill ν tri)).lenv exUps 0) ((ssAlg 2 (exKill ν tri)).renv 2 exUps 1) exUp exUp =
        (⟨(ssCutR (exKill ν tri) q).1, some g.energy⟩, ⟨(ssCutR (exKill ν tri) q).2, some g.energy⟩) := by
      exact (ssUpd_r hl).trans (congrArg (fun q => ((⟨(ssCutR (exKill ν tri) q).1, some g.energy⟩ : LTen Bool ℝ), (⟨(ssCutR (exKill ν tri) q).2, some g.energy⟩ : LTen Bool ℝ))) hE)
    show (Function.update (Function.update exUps 0 (ssUpd 2 (exKill ν tri) ν .r 0 ((ssAlg 2 (exKill ν tri)).lenv exUps 0) ((ssAlg 2 (exKill ν tri)).renv 2 exUps 1) exUp exUp).1) 1
      (ssUpd 2 (exKill ν tri) ν .r 0 ((ssAlg 2 (exKill ν tri)).lenv exUps 0) ((ssAlg 2 (exKill ν tri)).renv 2 exUps 1) exUp exUp).2 i).ten = _
    rw [this]
    by_cases h1 : i = 1
    · subst h1; simp
    · by_cases h0 : i = 0
      · subst h0; simp
      · simp [h1, h0, exUps]
  unfold ssState
  generalize (ssAt 2 (exKill ν tri) (ssUpds 2 1) (exUps, 0) 1).1 = φ at hU
  ext s
  show amp ((List.range 2).map (tens φ)) (List.ofFn s) 0 0 = 0
  have hr : (List.range 2).map (tens φ) = [tens φ 0, tens φ 1] := rfl
  rw [hr, List.ofFn_succ, List.ofFn_succ, amp_cons, hU 0, hU 1, if_neg (by omega), if_pos rfl, if_pos rfl, r1]
  simp [amp_cons, hz]

end Verif.Props
