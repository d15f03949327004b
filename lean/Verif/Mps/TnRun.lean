import Verif.Mps.TnStep
import Verif.Mps.SsRun
/-
The sweeps of the two-site optimisation with noise: between the updates the chain is canonical up to the pair of the next update.
-/
namespace Verif.Mps
open Finset Verif.Disk Verif.Algo Verif.Props

/-! ### The order of the updates -/

/-- The left site of the pair after an update. -/
def tnNext : Dir × Nat → Nat
  | (.r, i) => i + 1
  | (.l, i) => i - 1

/-- The updates can follow each other when the pair is at `c`: each is at the pair, and the three sites are in the chain. -/
def TnPath (N : Nat) : Nat → List (Dir × Nat) → Prop
  | _, [] => True
  | c, u :: us => (u.2 = c ∧ u.2 + 1 < N ∧ (u.1 = .r → u.2 + 2 < N) ∧ (u.1 = .l → 1 ≤ u.2)) ∧ TnPath N (tnNext u) us

/-- The pair at the end. -/
def tnEnds (c : Nat) (us : List (Dir × Nat)) : Nat := us.foldl (fun _ u => tnNext u) c

theorem tnPath_append {N : Nat} : ∀ {c : Nat} {us vs : List (Dir × Nat)}, TnPath N c (us ++ vs) ↔ TnPath N c us ∧ TnPath N (tnEnds c us) vs
  | c, [], vs => by simp [TnPath, tnEnds]
  | c, u :: us, vs => by
    rw [List.cons_append]
    show _ ∧ TnPath N (tnNext u) (us ++ vs) ↔ (_ ∧ TnPath N (tnNext u) us) ∧ TnPath N (tnEnds (tnNext u) us) vs
    rw [tnPath_append]
    exact and_assoc.symm

theorem tnEnds_append (c : Nat) (us vs : List (Dir × Nat)) : tnEnds c (us ++ vs) = tnEnds (tnEnds c us) vs := by
  unfold tnEnds; rw [List.foldl_append]

theorem tnPath_r {N : Nat} : ∀ m c, c + m + 1 < N → TnPath N c ((List.range' c m).map fun i => (.r, i)) ∧ tnEnds c ((List.range' c m).map fun i => (.r, i)) = c + m
  | 0, c, _ => ⟨trivial, rfl⟩
  | m + 1, c, h => by
    obtain ⟨a, b⟩ := tnPath_r (N := N) m (c + 1) (by omega)
    rw [List.range'_succ, List.map_cons]
    refine ⟨⟨⟨rfl, by simp only; omega, fun _ => by simp only; omega, fun h => by cases h⟩, a⟩, ?_⟩
    show tnEnds (c + 1) _ = _
    rw [b]; omega

theorem tnPath_l {N : Nat} (c : Nat) : ∀ m, c + m + 1 < N →
    TnPath N (c + m) ((List.range' (c + 1) m).reverse.map fun i => (.l, i)) ∧ tnEnds (c + m) ((List.range' (c + 1) m).reverse.map fun i => (.l, i)) = c
  | 0, _ => ⟨trivial, rfl⟩
  | m + 1, h => by
    obtain ⟨a, b⟩ := tnPath_l (N := N) c m (by omega)
    rw [List.range'_concat, List.reverse_append, List.reverse_singleton, List.map_append]
    have e : c + 1 + 1 * m = c + (m + 1) := by omega
    rw [e]
    exact ⟨⟨⟨rfl, h, (fun h => by cases h), fun _ => by show 1 ≤ c + (m + 1); omega⟩, a⟩, b⟩

theorem tnPath_sweep {N lb rb : Nat} (h1 : lb + 2 ≤ rb) (h2 : rb < N) : TnPath N lb (sweepUpds lb rb) ∧ tnEnds lb (sweepUpds lb rb) = lb := by
  obtain ⟨a, b⟩ := tnPath_r (N := N) (rb - 1 - lb) lb (by omega)
  obtain ⟨c, d⟩ := tnPath_l (N := N) lb (rb - 1 - lb) (by omega)
  unfold sweepUpds
  rw [tnPath_append, tnEnds_append, b]
  exact ⟨⟨a, c⟩, d⟩

theorem tnPath_sweeps {N lb rb : Nat} (h1 : lb + 2 ≤ rb) (h2 : rb < N) : ∀ k, TnPath N lb (upds lb rb k) ∧ tnEnds lb (upds lb rb k) = lb
  | 0 => ⟨trivial, rfl⟩
  | k + 1 => by
    obtain ⟨a, b⟩ := tnPath_sweep h1 h2
    obtain ⟨c, d⟩ := tnPath_sweeps h1 h2 k
    unfold upds at c d ⊢
    rw [List.replicate_succ, List.flatten_cons, tnPath_append, tnEnds_append, b]
    exact ⟨⟨a, c⟩, d⟩

theorem tnUpds_last {lb rb : Nat} (h1 : lb + 2 ≤ rb) {k : Nat} (hk : k ≠ 0) : ∃ us, upds lb rb k = us ++ [(.l, lb + 1)] := by
  obtain ⟨k, rfl⟩ := Nat.exists_eq_succ_of_ne_zero hk
  have : ∃ us, sweepUpds lb rb = us ++ [(.l, lb + 1)] := by
    unfold sweepUpds
    obtain ⟨m, hm⟩ : ∃ m, rb - 1 - lb = m + 1 := ⟨rb - 2 - lb, by omega⟩
    rw [hm, List.range'_succ (s := lb + 1), List.reverse_cons, List.map_append, ← List.append_assoc]
    exact ⟨_, rfl⟩
  obtain ⟨us, hu⟩ := this
  refine ⟨(List.replicate k (sweepUpds lb rb)).flatten ++ us, ?_⟩
  unfold upds
  rw [List.replicate_succ', List.flatten_append, List.append_assoc, ← hu]
  simp

section run
variable {σ 𝕜 : Type} [RCLike 𝕜] [Fintype σ] [DecidableEq σ] {N : Nat} {P : TnPar σ 𝕜}

/-- The chain is canonical up to the pair `(i, i+1)`. -/
structure OpenAt (N i : Nat) (t : Nat → Ten σ 𝕜) : Prop where
  closed : Closed N t
  left : ∀ j, j < i → LeftIso (t j)
  right : ∀ j, i + 1 < j → j < N → RightIso (t j)

omit [DecidableEq σ] in
theorem openAt_canon {i c : Nat} {t : Nat → Ten σ 𝕜} (h : Canon N c t) (hc : c = i ∨ c = i + 1) : OpenAt N i t :=
  ⟨h.1, fun j hj => h.2.1 j (by omega), fun j hj hj' => h.2.2 j (by omega) hj'⟩

theorem opt3Sweep_fold (lb rb : Nat) (ψ : (Nat → LTen σ 𝕜) × Nat) : opt3Sweep (tnAlg N P.toVmpsPar) (tnOpt P) N lb rb ψ = (sweepUpds lb rb).foldl (tn1 N P) ψ := by
  unfold opt3Sweep sweepUpds
  rw [List.foldl_append, List.foldl_map, List.foldl_map]
  have e : List.range' (lb + 2) (rb - 1 - lb) = (List.range' (lb + 1) (rb - 1 - lb)).map (· + 1) := by
    refine List.ext_getElem (by simp) fun j h1 h2 => ?_
    simp only [List.getElem_range', List.getElem_map]
    omega
  rw [e, ← List.map_reverse, List.foldl_map]
  rfl

theorem opt3Sweeps_fold (lb rb : Nat) : ∀ k (ψ : (Nat → LTen σ 𝕜) × Nat), opt3Sweeps (tnAlg N P.toVmpsPar) (tnOpt P) N lb rb k ψ = (upds lb rb k).foldl (tn1 N P) ψ
  | 0, _ => rfl
  | k + 1, ψ => by
    show opt3Sweeps (tnAlg N P.toVmpsPar) (tnOpt P) N lb rb k (opt3Sweep (tnAlg N P.toVmpsPar) (tnOpt P) N lb rb ψ) = _
    rw [opt3Sweeps_fold lb rb k, opt3Sweep_fold]
    unfold upds
    rw [List.replicate_succ, List.flatten_cons, List.foldl_append]

/-- One update of the sweep. -/
theorem tn1_ok (hP : TnOK N P) {ψ : (Nat → LTen σ 𝕜) × Nat} {u : Dir × Nat} (h1 : u.2 + 1 < N) (h2 : u.1 = .r → u.2 + 2 < N) (h3 : u.1 = .l → 1 ≤ u.2)
    (h : OpenAt N u.2 (tens ψ.1)) (hz : stateV N (tens ψ.1) ≠ 0) :
    OpenAt N (tnNext u) (tens (tn1 N P ψ u).1) ∧ (|P.noise ψ.2| < 1e-10 → stateV N (tens (tn1 N P ψ u).1) ≠ 0) ∧
      ∃ e, ((tn1 N P ψ u).1 u.2).e0 = some e ∧ ((tn1 N P ψ u).1 (u.2 + 1)).e0 = some e ∧ ((tn1 N P ψ u).1 (tnNext u)).e0 = some e ∧
        HStep N (opM N P.w) P.NoCut (stateV N (tens ψ.1)) e (stateV N (tens (tn1 N P ψ u).1)) := by
  obtain ⟨d, i⟩ := u
  have e0p : ∀ (ψ : Nat → LTen σ 𝕜) i p e, p.1.e0 = some e → p.2.1.e0 = some e → p.2.2.e0 = some e →
      (put3 ψ i p i).e0 = some e ∧ (put3 ψ i p (i + 1)).e0 = some e ∧ (put3 ψ i p (i + 2)).e0 = some e := by
    intro ψ i p e a b c
    unfold put3
    refine ⟨?_, ?_, ?_⟩
    · rw [Function.update_of_ne (by omega), Function.update_of_ne (by omega), Function.update_self]; exact a
    · rw [Function.update_of_ne (by omega), Function.update_self]; exact b
    · rw [Function.update_self]; exact c
  cases d with
  | r =>
    obtain ⟨p, e, hp, e1, e2, e3, hs, hc, hl, hr, hn⟩ := tnUpdR_ok hP (P.noise ψ.2) (h2 rfl) ⟨h.closed, h.left, h.right, hz⟩
    have hq : (tn1 N P ψ (.r, i)).1 = put3 ψ.1 i p := by
      rw [← hp, ← lenv_tn, ← renv_tn h.closed _ (by omega)]; rfl
    rw [hq]
    obtain ⟨a, b, c⟩ := e0p ψ.1 i p e e1 e2 e3
    exact ⟨⟨hc, hl, hr⟩, hn, e, a, b, b, hs⟩
  | l =>
    obtain ⟨j, rfl⟩ : ∃ j, i = j + 1 := ⟨i - 1, by have := h3 rfl; simp only at this; omega⟩
    obtain ⟨p, e, hp, e1, e2, e3, hs, hc, hl, hr, hn⟩ := tnUpdL_ok hP (P.noise ψ.2) h1 ⟨h.closed, h.left, h.right, hz⟩
    have hq : (tn1 N P ψ (.l, j + 1)).1 = put3 ψ.1 j p := by
      rw [← hp, ← lenv_tn, ← renv_tn h.closed _ (by omega)]; rfl
    rw [hq]
    obtain ⟨a, b, c⟩ := e0p ψ.1 j p e e1 e2 e3
    exact ⟨⟨hc, hl, hr⟩, hn, e, b, c, a, hs⟩

theorem tnAt_succ {us : List (Dir × Nat)} {ψ : (Nat → LTen σ 𝕜) × Nat} {n : Nat} (hn : n < us.length) :
    tnAt N P us ψ (n + 1) = tn1 N P (tnAt N P us ψ n) us[n] := by
  unfold tnAt
  rw [List.take_add_one, List.getElem?_eq_getElem hn, List.foldl_append]
  rfl

/-- As long as the state has not become zero, the chain is canonical up to the pair of the next update. -/
theorem tnAt_open (hP : TnOK N P) : ∀ (us : List (Dir × Nat)) {ψ : (Nat → LTen σ 𝕜) × Nat} {c : Nat}, TnPath N c us → OpenAt N c (tens ψ.1) → ∀ n, n ≤ us.length →
    (∀ m, m < n → tnState N P us ψ m ≠ 0) → OpenAt N (tnEnds c (us.take n)) (tens (tnAt N P us ψ n).1)
  | us, ψ, c, hp, h, 0, _, _ => by simpa [tnAt, tnEnds] using h
  | [], ψ, c, hp, h, n + 1, hn, _ => by simp at hn
  | u :: us, ψ, c, hp, h, n + 1, hn, hz => by
    obtain ⟨⟨rfl, p1, p2, p3⟩, p4⟩ := hp
    have h0 : stateV N (tens ψ.1) ≠ 0 := by simpa [tnState, tnAt] using hz 0 (by omega)
    obtain ⟨a, -, -⟩ := tn1_ok hP p1 p2 p3 h h0
    exact tnAt_open hP us p4 a n (by simpa using hn) fun m hm => hz (m + 1) (by omega)

/-- One update of the run, as long as the state has not become zero. -/
theorem tnAt_ok (hP : TnOK N P) {us : List (Dir × Nat)} {ψ : (Nat → LTen σ 𝕜) × Nat} {c : Nat} (hp : TnPath N c us) (h : OpenAt N c (tens ψ.1)) {n : Nat} (hn : n < us.length)
    (hz : TnAlive N P us ψ n) : us[n].2 + 1 < N ∧ OpenAt N us[n].2 (tens (tnAt N P us ψ n).1) ∧ OpenAt N (tnNext us[n]) (tens (tnAt N P us ψ (n + 1)).1) ∧
      (|P.noise (tnAt N P us ψ n).2| < 1e-10 → tnState N P us ψ (n + 1) ≠ 0) ∧
      ∃ e, ((tnAt N P us ψ (n + 1)).1 us[n].2).e0 = some e ∧ ((tnAt N P us ψ (n + 1)).1 (us[n].2 + 1)).e0 = some e ∧ ((tnAt N P us ψ (n + 1)).1 (tnNext us[n])).e0 = some e ∧
        HStep N (opM N P.w) P.NoCut (tnState N P us ψ n) e (tnState N P us ψ (n + 1)) := by
  have hc := tnAt_open hP us hp h n (by omega) fun m hm => hz m (by omega)
  have hs : us = us.take n ++ us[n] :: us.drop (n + 1) := by
    rw [← List.drop_eq_getElem_cons hn, List.take_append_drop]
  have hp' := hp
  rw [hs, tnPath_append] at hp'
  obtain ⟨-, ⟨p0, p1, p2, p3⟩, -⟩ := hp'
  rw [← p0] at hc
  have := tn1_ok hP p1 p2 p3 hc (hz n (Nat.le_refl _))
  unfold tnState
  rw [tnAt_succ hn]
  exact ⟨p1, hc, this⟩

/-- The local work keeps the outer legs. -/
theorem tn_legs (hR : BlkSplitR P.splitR) (hL : BlkSplitL P.splitL) : (tnOpt P).Legs (tnAlg N P.toVmpsPar) where
  left := fun c d i e f t u v => by
    have : (tnUpd P (P.noise c) d i e f t.ten u.ten v.ten).1.ten.l = t.ten.l := by
      unfold tnUpd
      cases d with
      | r =>
        simp only
        cases lanczosAt P.toVmpsPar i e f t.ten u.ten with
        | none => rfl
        | some g =>
          show (P.splitR (tnExpR P (P.noise c) i e t.ten u.ten (ofV g.vec) v.ten).1).1.l = _
          rw [hR.dimL]; unfold tnExpR; split <;> rfl
      | l =>
        simp only
        cases lanczosAt P.toVmpsPar (i - 1) e f u.ten v.ten with
        | none => rfl
        | some g =>
          show (tnExpL P (P.noise c) (i - 1) f u.ten v.ten t.ten (ofV g.vec)).1.l = _
          unfold tnExpL; split <;> rfl
    show unitEnv (tnUpd P (P.noise c) d i e f t.ten u.ten v.ten).1.ten.l (P.w 0).l (tnUpd P (P.noise c) d i e f t.ten u.ten v.ten).1.ten.l = unitEnv t.ten.l (P.w 0).l t.ten.l
    rw [this]
  right := fun c d i e f t u v => by
    have : (tnUpd P (P.noise c) d i e f t.ten u.ten v.ten).2.2.ten.r = v.ten.r := by
      unfold tnUpd
      cases d with
      | r =>
        simp only
        cases lanczosAt P.toVmpsPar i e f t.ten u.ten with
        | none => rfl
        | some g =>
          show (tnExpR P (P.noise c) i e t.ten u.ten (ofV g.vec) v.ten).2.r = _
          unfold tnExpR; split <;> rfl
      | l =>
        simp only
        cases lanczosAt P.toVmpsPar (i - 1) e f u.ten v.ten with
        | none => rfl
        | some g =>
          show (P.splitL (tnExpL P (P.noise c) (i - 1) f u.ten v.ten t.ten (ofV g.vec)).2).2.r = _
          rw [hL.dimR]; unfold tnExpL; split <;> rfl
    show unitEnv (tnUpd P (P.noise c) d i e f t.ten u.ten v.ten).2.2.ten.r (P.w (N - 1)).r (tnUpd P (P.noise c) d i e f t.ten u.ten v.ten).2.2.ten.r = unitEnv v.ten.r (P.w (N - 1)).r v.ten.r
    rw [this]

theorem tnCanon_legs (H : QRSpec P.qr) : (tnCanon P).Legs (tnAlg N P.toVmpsPar) where
  left := fun t u => by
    show unitEnv (P.qr t.ten).1.l (P.w 0).l (P.qr t.ten).1.l = _
    rw [H.dim]; rfl
  right := fun t u => rfl

omit [DecidableEq σ] in
/-- The last `LeftCanonicalizeTen`: the state stays, the centre is the right site of the pair. -/
theorem canonAt_ok (H : QRSpec P.qr) {ψ : Nat → LTen σ 𝕜} {i : Nat} (hi : i + 1 < N) (h : OpenAt N i (tens ψ)) :
    Canon N (i + 1) (tens (canonAt (tnCanon P) i ψ)) ∧ stateV N (tens (canonAt (tnCanon P) i ψ)) = stateV N (tens ψ) ∧
      ∀ j, (canonAt (tnCanon P) i ψ j).e0 = (ψ j).e0 := by
  have e : tens (canonAt (tnCanon P) i ψ) = setPair (tens ψ) i ((P.qr (tens ψ i)).1, mulL (P.qr (tens ψ i)).2 (P.qr (tens ψ i)).1.r (tens ψ (i + 1))) := tens_put ψ i _
  have hm := h.closed.2.2 i hi
  have hs := samePair_qr H (tens ψ i) (tens ψ (i + 1)) hm
  obtain ⟨a, b⟩ := same_step h.closed hi (p := (P.qr (tens ψ i)).1) (q := mulL (P.qr (tens ψ i)).2 (P.qr (tens ψ i)).1.r (tens ψ (i + 1))) (H.dim _) rfl rfl hs
  rw [e]
  refine ⟨⟨a, fun j hj => ?_, fun j hj hj' => ?_⟩, b, fun j => ?_⟩
  · by_cases h1 : j = i
    · subst h1; rw [setPair_l]; exact H.iso _
    · rw [setPair_o _ _ _ h1 (by omega)]; exact h.left j (by omega)
  · rw [setPair_o _ _ _ (by omega) (by omega)]; exact h.right j hj hj'
  · unfold canonAt tnCanon
    by_cases h1 : j = i + 1
    · subst h1; rw [Function.update_self]
    · rw [Function.update_of_ne h1]
      by_cases h0 : j = i
      · subst h0; rw [Function.update_self]
      · rw [Function.update_of_ne h0]

end run
end Verif.Mps
