import Verif.Mps.VarInit
import Verif.Props.FmpoTrunc
/-
C44: the compressing product `MpoProduct(mpo1, mpo2, output, Dmin, Dmax, …)` of two `FiniteMPO`s.

Specification vocabulary: `IsOp`, `opMat`, `mixedFlags` (Verif/Props/Fmpo.lean); `⟨X, Y⟩ = trace (X Yᴴ)`.
-/
namespace Verif.Props
open Verif.Mps Finset

variable {σ K : Type} [CommRing K] [StarRing K] [Fintype σ] {N : Nat}

/-- The initial guess of the compressing product: the output object when it holds an operator, the first operand when a slot of the output is empty. -/
def IsGuess (out : FMpo σ K) (A G : Matrix (Fin N → σ) (Fin N → σ) K) : Prop :=
  IsOp out G ∨ (out.size = N ∧ (∃ i : Nat, out.slots[i]? = some Option.none) ∧ G = A)

omit [StarRing K] in
theorem opMat_prod {ts us : List (Ten (σ × σ) K)} (l1 : Linked ts) (l2 : Linked us) (hl : us.length = ts.length) (a1 : headL ts = 1) (a2 : lastR ts = 1)
    (b1 : headL us = 1) (b2 : lastR us = 1) : opMat ts.length (List.zipWith prodTen ts us) = opMat ts.length ts * opMat ts.length us := by
  funext s s'
  have hn := ne_nil_of_pos a1
  have hn' := ne_nil_of_pos b1
  have o1 : outR 1 ts = 1 := by rw [outR_eq _ _ hn, a2]
  have o2 : outR 1 us = 1 := by rw [outR_eq _ _ hn', b2]
  have hh : ∀ {ts : List (Ten (σ × σ) K)}, headL ts = 1 → ∀ t, ts.head? = some t → t.l = 1 := by
    intro ts h t ht
    cases ts with
    | nil => simp at ht
    | cons u us => simp at ht; subst ht; exact h
  have := prod_amp ts us ts.length 1 1 rfl hl l1 l2 (hh a1) (hh b1) s s' 0 0 (by omega) (by rw [o1, o2]; omega)
  rw [o2] at this
  rw [Matrix.mul_apply]
  exact this

omit [StarRing K] [Fintype σ] in
theorem guess_start {out : FMpo σ K} {ts : List (Ten (σ × σ) K)} {G : Matrix (Fin ts.length → σ) (Fin ts.length → σ) K} (h : IsGuess out (opMat ts.length ts) G) :
    (∃ gs, Rep out gs ∧ gs.length = ts.length ∧ headL gs = 1 ∧ lastR gs = 1) ∨ (out.slots.length = ts.length ∧ ∃ i : Nat, out.slots[i]? = some Option.none) := by
  rcases h with h | ⟨h1, h2, -⟩
  · obtain ⟨gs, r, e, c1, c2, -⟩ := h.rep
    exact Or.inl ⟨gs, r, e, c1, c2⟩
  · exact Or.inr ⟨h1, h2⟩

/-- The flags the product writes. -/
theorem varFlags {N : Nat} (h : 2 ≤ N) : Cano.left :: Cano.none :: List.replicate (N - 2) .right = mixedFlags N 1 := by
  apply List.ext_getElem?
  intro j
  unfold mixedFlags
  match j with
  | 0 => rw [List.getElem?_map, List.getElem?_range (by omega)]; rfl
  | 1 => rw [List.getElem?_map, List.getElem?_range (by omega)]; rfl
  | j + 2 =>
    simp only [List.getElem?_cons_succ, List.getElem?_replicate, List.getElem?_map]
    by_cases c : j < N - 2
    · rw [if_pos c, List.getElem?_range (by omega)]; simp
    · rw [if_neg c, List.getElem?_eq_none (by simp; omega)]; rfl

/-- **C44.** Three or more sites, at least one sweep, any operands, any initial guess (or an empty output, which is replaced by a copy of the first operand), any files already in the temporary
directory: the call succeeds (every environment it reads is one it wrote). The operator `O'` it leaves is an orthogonal projection of the exact product `A·B` —
`⟨A·B, O'⟩ = ⟨O', O'⟩`, hence `‖A·B - O'‖² = ‖A·B‖² - ‖O'‖²` — whichever singular values are kept and whenever the sweeps stop. The centre is 1, the flags are
those of a chain centred at site 1 and they are true, the norm printed last (the norm of the tensor at site 1) is the norm of `O'`, no inner bond exceeds `Dmax`, and the environment files
`l0`, `r0 … r(N-2)` are left behind. -/
theorem C44_product [DecidableEq σ] {qr svd tsvd : Ten (σ × σ) K → Ten (σ × σ) K × Mat K} {nrm : Ten (σ × σ) K → K × Ten (σ × σ) K} {terr : Ten (σ × σ) K → K}
    (H : QRSpec qr) (H' : SVDSpec svd) {splitR splitL : Two σ K → Ten (σ × σ) K × Ten (σ × σ) K} (HR : SplitRSpec splitR) (HL : SplitLSpec splitL)
    (nrm2 : Ten (σ × σ) K → K) (conv : K → K → Bool) {sweeps : Nat} (hs : 1 ≤ sweeps) (hN : 3 ≤ N)
    {cs : List (MpoCall σ K)} {m1 m2 out : FMpo σ K} (hist : FMpo.history qr svd nrm tsvd terr N cs = .ok m1)
    {A B G : Matrix (Fin N → σ) (Fin N → σ) K} (hA : IsOp m1 A) (hB : IsOp m2 B) (hG : IsGuess out A G) (lf rf : Nat → Option (Env3 K)) :
    ∃ z O', FMpo.varProduct qr svd splitR splitL nrm2 conv sweeps m1 m2 out lf rf = .ok z ∧ IsOp z.out O' ∧
      Matrix.trace (A * B * O'.conjTranspose) = Matrix.trace (O' * O'.conjTranspose) ∧
      Matrix.trace ((A * B - O') * (A * B - O').conjTranspose) = Matrix.trace (A * B * (A * B).conjTranspose) - Matrix.trace (O' * O'.conjTranspose) ∧
      z.out.center = 1 ∧ z.out.flags = mixedFlags N 1 ∧
      (∀ (i : Nat) (t : Ten (σ × σ) K), z.out.slots[i]? = some (some t) →
        (z.out.flags[i]? = some .left → LeftIso t) ∧ (z.out.flags[i]? = some .right → RightIso t)) ∧
      (∃ t, z.out.slots[1]? = some (some t) ∧ normSq t = Matrix.trace (O' * O'.conjTranspose)) ∧
      (∀ Dmax, (∀ T, (splitR T).1.r ≤ Dmax ∧ (splitL T).1.r ≤ Dmax) → ∀ (i : Nat) (t : Ten (σ × σ) K), 0 < i → z.out.slots[i]? = some (some t) → t.l ≤ Dmax) ∧
      (z.lf 0 ≠ none ∧ ∀ k ≤ N - 2, z.rf k ≠ none) := by
  obtain ⟨ts, r1, rfl, a1, a2, rfl⟩ := hA.rep
  obtain ⟨us, r2, hl, b1, b2, rfl⟩ := hB.rep
  obtain ⟨sc, c, s, os, e1, e2, e3, ol, inv, -, -⟩ := varStart H H' (out := out) r1 r2 (mpo_history_inv hist).1 hl (by omega) a1 a2 b1 b2 (guess_start hG) lf rf
  obtain ⟨z, os', f1, l', inv', k⟩ := varSweeps_inv HR HL nrm2 conv r1.slots r2.slots
    (GL := fun t => LeftIso t ∧ ∀ D, (∀ T, (splitR T).1.r ≤ D ∧ (splitL T).1.r ≤ D) → t.r ≤ D)
    (GR := fun t => RightIso t ∧ ∀ D, (∀ T, (splitR T).1.r ≤ D ∧ (splitL T).1.r ≤ D) → t.l ≤ D)
    (fun T => ⟨HR.iso T, fun D h => (h T).1⟩) (fun T => ⟨HL.iso T, fun D h => by rw [← HL.mid]; exact (h T).2⟩)
    sweeps 0 0 os s (by omega) inv
  rw [ol] at f1 l' inv'
  rcases k with ⟨h0, -⟩ | ⟨gl, gr, ov⟩
  · omega
  obtain ⟨t, ht⟩ := getE (ts := os') (i := 1) (by omega)
  have sz1 : FMps.size m1 = ts.length := r1.size
  have cs1 : chainSq os' = normSq t := by
    refine chainSq_center inv'.ho inv'.la inv'.rep.link ht ?_ ?_
    · intro j u hj hu
      have : j = 0 := by omega
      subst this
      exact (gl u hu).1
    · intro j u hj hu; exact (gr j u (by omega) hu).1
  have t1 : Matrix.trace (opMat ts.length os' * (opMat ts.length os').conjTranspose) = normSq t := by
    rw [← l', frob_chain, cs1]
  have t2 : Matrix.trace (opMat ts.length ts * opMat ts.length us * (opMat ts.length os').conjTranspose) = normSq t := by
    rw [← opMat_prod r1.link r2.link hl a1 a2 b1 b2, frob_chain2, ← ov t ht, ← l']
    exact sum_congr rfl fun s _ => mul_comm _ _
  have ff := varFlags (show 2 ≤ ts.length by omega)
  refine ⟨{ z with out := ⟨z.out.slots, .left :: .none :: List.replicate (ts.length - 2) .right, 1⟩ }, opMat ts.length os', ?_, IsOp.mk' (ts := os') ⟨inv'.rep.slots, ?_, inv'.rep.link⟩ l' inv'.ho inv'.la rfl, by rw [t2, t1],
    frob_pythagoras (by rw [t2, t1]), rfl, ff, ?_, ⟨t, inv'.rep.get ht, t1.symm⟩, ?_, ?_, ?_⟩
  · unfold FMpo.varProduct
    rw [if_pos (by rw [sz1]; omega), e1]
    show (FMpo.centralize qr svd (if sc.2 then m1 else sc.1) 0 >>= _) = _
    rw [e2]
    show (varGen c m1 m2 lf rf >>= _) = _
    rw [e3, sz1]
    show (varSweeps splitR splitL nrm2 conv m1 m2 ts.length sweeps 0 0 s >>= _) = _
    rw [f1]; rfl
  · simp; omega
  · intro i u hu
    have hu' : os'[i]? = some u := by
      have := inv'.rep.slots
      simp only [this, List.getElem?_map] at hu
      simpa using hu
    match i with
    | 0 => exact ⟨fun _ => (gl u hu').1, fun h => by simp at h⟩
    | 1 => exact ⟨fun h => by simp at h, fun h => by simp at h⟩
    | i + 2 =>
      refine ⟨fun h => ?_, fun _ => (gr (i + 2) u (by omega) hu').1⟩
      simp only [List.getElem?_cons_succ, List.getElem?_replicate] at h
      split at h <;> simp at h
  · intro D hD i u hi hu
    have hu' : os'[i]? = some u := by
      have := inv'.rep.slots
      simp only [this, List.getElem?_map] at hu
      simpa using hu
    match i with
    | 1 =>
      obtain ⟨t0, ht0⟩ := getE (ts := os') (i := 0) (by omega)
      rw [← linked_get inv'.rep.link 0 t0 u ht0 hu']
      exact (gl t0 ht0).2 D hD
    | i + 2 => exact (gr (i + 2) u (by omega) hu').2 D hD
  · obtain ⟨e, h, -⟩ := inv'.lfs 0 (Nat.le_refl _)
    simp [h]
  · intro k hk
    obtain ⟨e, h, -⟩ := inv'.rfs k hk
    simp [h]

theorem varSweep_two {splitR splitL : Two σ K → Ten (σ × σ) K × Ten (σ × σ) K} {m1 m2 : FMpo σ K} {s : VarSt σ K} {e e' : Env3 K} (h : s.lf 0 = some e) (h' : s.rf 0 = some e') :
    varSweep splitR splitL m1 m2 2 s = .ok s := by
  unfold varSweep
  have r0 : readEnv s.lf 0 = .ok e := by unfold readEnv; rw [h]
  have r1 : readEnv s.rf 0 = .ok e' := by unfold readEnv; rw [h']
  rw [r0]
  show (readEnv s.rf 0 >>= _) = _
  rw [r1]; rfl

theorem varSweeps_two {splitR splitL : Two σ K → Ten (σ × σ) K × Ten (σ × σ) K} (nrm2 : Ten (σ × σ) K → K) (conv : K → K → Bool) {m1 m2 : FMpo σ K} {os : List (Ten (σ × σ) K)}
    {t : Ten (σ × σ) K} (ht : os[1]? = some t) :
    ∀ (n k : Nat) (old : K) (s : VarSt σ K), s.out.slots = os.map some → s.out.flags.length = os.length → s.lf 0 ≠ none → s.rf 0 ≠ none →
    ∃ s', varSweeps splitR splitL nrm2 conv m1 m2 2 n k old s = .ok s' ∧ s'.out.slots = os.map some := by
  intro n
  induction n with
  | zero => intro k old s h _ _ _; exact ⟨s, rfl, h⟩
  | succ n ih =>
    intro k old s h hf h1 h2
    obtain ⟨e, he⟩ := Option.ne_none_iff_exists'.mp h1
    obtain ⟨e', he'⟩ := Option.ne_none_iff_exists'.mp h2
    have g : s.out.slots[1]? = some (some t) := by rw [h, List.getElem?_map, ht]; rfl
    have tc : s.out.touch 1 = .ok ⟨s.out.slots, s.out.flags.set 1 .none, -1⟩ := by
      unfold FMps.touch
      rw [g]
    have un : varSweeps splitR splitL nrm2 conv m1 m2 2 (n + 1) k old s =
        if 1 ≤ k ∧ conv (nrm2 t) old = true then .ok { s with out := ⟨s.out.slots, s.out.flags.set 1 .none, -1⟩ }
        else varSweeps splitR splitL nrm2 conv m1 m2 2 n (k + 1) (nrm2 t) { s with out := ⟨s.out.slots, s.out.flags.set 1 .none, -1⟩ } := by
      rw [varSweeps, varSweep_two he he']
      show (FMps.read s.out 1 >>= _) = _
      rw [read_ok g]
      show (FMps.touch s.out 1 >>= _) = _
      rw [tc]; rfl
    rw [un]
    split
    · exact ⟨_, rfl, h⟩
    · exact ih _ _ _ h (by simpa using hf) h1 h2

theorem normSq_leftIso {τ : Type} [Fintype τ] {t : Ten τ K} (h : LeftIso t) : normSq t = (t.r : K) := by
  unfold normSq
  rw [sum_congr rfl fun s _ => sum_comm, sum_comm]
  have : ∀ b ∈ range t.r, ∑ s, ∑ a ∈ range t.l, t.v s a b * star (t.v s a b) = 1 := by
    intro b hb
    have := h b (mem_range.mp hb) b (mem_range.mp hb)
    rw [if_pos rfl] at this
    rw [← this]
    exact sum_congr rfl fun s _ => sum_congr rfl fun a _ => mul_comm _ _
  rw [sum_congr rfl this]
  simp

/-- **C44, violated.** On two sites, or with no sweep, the call succeeds and does nothing: the operator left in the output is the initial guess, not the product. The object nevertheless reports centre 1
and the flags of a chain centred there; unless the squared norm of the guess happens to be a natural number, the LEFT flag of site 0 is false. -/
theorem C44_no_update [DecidableEq σ] {qr svd tsvd : Ten (σ × σ) K → Ten (σ × σ) K × Mat K} {nrm : Ten (σ × σ) K → K × Ten (σ × σ) K} {terr : Ten (σ × σ) K → K}
    (H : QRSpec qr) (H' : SVDSpec svd) (H'' : TruncSpec tsvd terr) (splitR splitL : Two σ K → Ten (σ × σ) K × Ten (σ × σ) K)
    (nrm2 : Ten (σ × σ) K → K) (conv : K → K → Bool) {sweeps : Nat} (hN : 2 ≤ N) (hs : N = 2 ∨ sweeps = 0)
    {cs : List (MpoCall σ K)} {m1 m2 out : FMpo σ K} (hist : FMpo.history qr svd nrm tsvd terr N cs = .ok m1)
    (noLoad : ∀ c ∈ cs, ∀ d, c ≠ .loadDir d) (noAll : ∀ c ∈ cs, ∀ k, c ≠ .allScale k)
    {A B G : Matrix (Fin N → σ) (Fin N → σ) K} (hA : IsOp m1 A) (hB : IsOp m2 B) (hG : IsGuess out A G) (lf rf : Nat → Option (Env3 K)) :
    ∃ z, FMpo.varProduct qr svd splitR splitL nrm2 conv sweeps m1 m2 out lf rf = .ok z ∧ IsOp z.out G ∧ z.out.center = 1 ∧ z.out.flags = mixedFlags N 1 ∧
      ((∀ n : Nat, Matrix.trace (G * G.conjTranspose) ≠ (n : K)) →
        ∃ t, z.out.slots[0]? = some (some t) ∧ z.out.flags[0]? = some .left ∧ ¬ LeftIso t) := by
  obtain ⟨T1, -⟩ := C65_flags_truthful H H' H'' hist noLoad noAll
  obtain ⟨ts, r1, rfl, a1, a2, rfl⟩ := hA.rep
  obtain ⟨us, r2, hl, b1, b2, rfl⟩ := hB.rep
  obtain ⟨sc, c, s, os, e1, e2, e3, ol, inv, kR, gs, kE, kG⟩ := varStart H H' (out := out) r1 r2 (mpo_history_inv hist).1 hl (by omega) a1 a2 b1 b2 (guess_start hG) lf rf
  have sz1 : FMps.size m1 = ts.length := r1.size
  have hop : opMat ts.length os = G := by
    have g0 : headL gs = 1 := kE.head.symm.trans inv.ho
    have eo : opMat ts.length os = opMat ts.length gs := by
      funext x y
      exact kE.amp _ 0 0 (by rw [g0]; omega)
    rw [eo]
    rcases kG with ⟨rfl, i, hi⟩ | hg
    · rcases hG with h | ⟨-, -, rfl⟩
      · obtain ⟨ws, rw', -⟩ := h.rep
        rw [rw'.slots, List.getElem?_map] at hi
        cases hx : ws[i]? with
        | none => rw [hx] at hi; simp at hi
        | some w => rw [hx] at hi; simp at hi
      · rfl
    · rcases hG with h | ⟨-, ⟨i, hi⟩, -⟩
      · obtain ⟨ws, rw', -, -, -, rfl⟩ := h.rep
        have : ws = gs := by
          have := rw'.slots
          rw [hg] at this
          exact (List.map_injective_iff.mpr (Option.some_injective _) this).symm
        rw [this]
      · rw [hg, List.getElem?_map] at hi
        cases hx : gs[i]? with
        | none => rw [hx] at hi; simp at hi
        | some w => rw [hx] at hi; simp at hi
  obtain ⟨z, f1, f2⟩ : ∃ z, varSweeps splitR splitL nrm2 conv m1 m2 ts.length sweeps 0 0 s = .ok z ∧ z.out.slots = os.map some := by
    rcases hs with hs | rfl
    · obtain ⟨t, ht⟩ := getE (ts := os) (i := 1) (by omega)
      rw [hs]
      refine varSweeps_two nrm2 conv ht sweeps 0 0 s inv.rep.slots inv.rep.flen ?_ ?_
      · obtain ⟨e, h, -⟩ := inv.lfs 0 (Nat.le_refl _); simp [h]
      · obtain ⟨e, h, -⟩ := inv.rfs 0 (by omega); simp [h]
    · exact ⟨s, rfl, inv.rep.slots⟩
  have ff := varFlags (show 2 ≤ ts.length by omega)
  refine ⟨{ z with out := ⟨z.out.slots, .left :: .none :: List.replicate (ts.length - 2) .right, 1⟩ }, ?_,
    IsOp.mk' (ts := os) ⟨f2, ?_, inv.rep.link⟩ ol inv.ho inv.la hop, rfl, ff, ?_⟩
  · unfold FMpo.varProduct
    rw [if_pos (by rw [sz1]; omega), e1]
    show (FMpo.centralize qr svd (if sc.2 then m1 else sc.1) 0 >>= _) = _
    rw [e2]
    show (varGen c m1 m2 lf rf >>= _) = _
    rw [e3, sz1]
    show (varSweeps splitR splitL nrm2 conv m1 m2 ts.length sweeps 0 0 s >>= _) = _
    rw [f1]; rfl
  · simp; omega
  · intro hne
    obtain ⟨t, ht⟩ := getE (ts := os) (i := 0) (by omega)
    refine ⟨t, by simp only [f2, List.getElem?_map, ht]; rfl, rfl, fun hiso => hne t.r ?_⟩
    rw [← normSq_leftIso hiso, ← hop, ← ol, frob_chain]
    refine chainSq_center inv.ho inv.la inv.rep.link ht (fun j u hj => by omega) (fun j u hj hu => kR T1 j u hj hu)

/-- **C44, size.** On fewer than two sites the call is undefined behaviour. -/
theorem C44_short {qr svd : Ten (σ × σ) K → Ten (σ × σ) K × Mat K} (splitR splitL : Two σ K → Ten (σ × σ) K × Ten (σ × σ) K)
    (nrm2 : Ten (σ × σ) K → K) (conv : K → K → Bool) (sweeps : Nat) {m1 : FMpo σ K} (m2 out : FMpo σ K) {A : Matrix (Fin N → σ) (Fin N → σ) K}
    (hA : IsOp m1 A) (hN : N < 2) (lf rf : Nat → Option (Env3 K)) : FMpo.varProduct qr svd splitR splitL nrm2 conv sweeps m1 m2 out lf rf = .error .ub := by
  obtain ⟨ts, r1, rfl, -⟩ := hA.rep
  unfold FMpo.varProduct
  exact if_neg (by rw [show FMps.size m1 = ts.length from r1.size]; omega)

/-! ### Concrete decompositions and a concrete case -/

/-- A truncated split: at most `D` directions are kept. -/
def splitRE {d : Nat} (e : σ × σ ≃ Fin d) (D : Nat) (T : Two σ K) : Ten (σ × σ) K × Ten (σ × σ) K :=
  (⟨T.l, min D (d * T.l), (qrE e ⟨T.l, T.r, fun _ _ _ => (0 : K)⟩).1.v⟩,
   ⟨min D (d * T.l), T.r, fun y j b => (qrE e ⟨T.l, T.r, fun x a b => T.v x y a b⟩).2 j b⟩)

/-- The mirror image of `splitRE`. -/
def splitLE {d : Nat} (e : σ × σ ≃ Fin d) (D : Nat) (T : Two σ K) : Ten (σ × σ) K × Ten (σ × σ) K :=
  (⟨T.l, min D (d * T.r), fun x a j => (svdE e ⟨T.l, T.r, fun y a b => T.v x y a b⟩).2 a j⟩,
   ⟨min D (d * T.r), T.r, (svdE e ⟨T.l, T.r, fun _ _ _ => (0 : K)⟩).1.v⟩)

theorem splitRE_spec {d : Nat} (e : σ × σ ≃ Fin d) (D : Nat) : SplitRSpec (splitRE (K := K) e D) where
  dimL := fun _ => rfl
  dimR := fun _ => rfl
  mid := fun _ => rfl
  iso := fun T x hx y hy => (qrE_spec (K := K) e).iso ⟨T.l, T.r, fun _ _ _ => (0 : K)⟩ x (Nat.lt_of_lt_of_le hx (Nat.min_le_right _ _)) y
    (Nat.lt_of_lt_of_le hy (Nat.min_le_right _ _))

theorem splitLE_spec {d : Nat} (e : σ × σ ≃ Fin d) (D : Nat) : SplitLSpec (splitLE (K := K) e D) where
  dimL := fun _ => rfl
  dimR := fun _ => rfl
  mid := fun _ => rfl
  iso := fun T x hx y hy => (svdE_spec (K := K) e).iso ⟨T.l, T.r, fun _ _ _ => (0 : K)⟩ x (Nat.lt_of_lt_of_le hx (Nat.min_le_right _ _)) y
    (Nat.lt_of_lt_of_le hy (Nat.min_le_right _ _))
  proj := fun T x a j ha hj => svd_proj (svdE_spec (K := K) e) ⟨T.l, T.r, fun y a b => T.v x y a b⟩ a j ha (Nat.lt_of_lt_of_le hj (Nat.min_le_right _ _))

/-- Three sites: an operator with bonds of dimension two. -/
def exTM : Ten (Bool × Bool) ℚ := ⟨2, 2, fun s a b => if a = b then (if s.1 = s.2 then 1 else 0) else (if s.1 = s.2 then 0 else 3)⟩
def exV : FMpo Bool ℚ := ⟨[some exTL, some exTM, some exTR], [.none, .none, .none], -1⟩

theorem exV_op : IsOp (N := 3) exV (opMat 3 [exTL, exTM, exTR]) :=
  ⟨[exTL, exTM, exTR], rfl, rfl, linked_mk rfl (linked_mk rfl (List.IsChain.singleton _)), rfl, rfl, rfl, rfl⟩

/-- The hypotheses of `C44_product` hold for the square of an operator on three sites, with an empty output and a bound of three on the bonds. -/
example : ∃ z O', FMpo.varProduct (qrE pairEnum) (svdE pairEnum) (splitRE pairEnum 3) (splitLE pairEnum 3) (fun _ => 0) (fun _ _ => true) 2 exV exV (FMpo.fresh 3)
      (fun _ => none) (fun _ => none) = .ok z ∧ IsOp (N := 3) z.out O' ∧
    Matrix.trace (opMat 3 [exTL, exTM, exTR] * opMat 3 [exTL, exTM, exTR] * O'.conjTranspose) = Matrix.trace (O' * O'.conjTranspose) ∧
    (∀ (i : Nat) (t : Ten (Bool × Bool) ℚ), 0 < i → z.out.slots[i]? = some (some t) → t.l ≤ 3) := by
  obtain ⟨z, O', e, io, h1, -, -, -, -, -, hD, -⟩ := C44_product (N := 3) (qrE_spec (K := ℚ) pairEnum) (svdE_spec pairEnum) (splitRE_spec pairEnum 3) (splitLE_spec pairEnum 3)
    (fun _ => 0) (fun _ _ => true) (sweeps := 2) (by omega) (by omega) (tsvd := tsvdE pairEnum 3) (nrm := fun t => (1, t)) (terr := terrE pairEnum 3)
    (cs := [.write 0 exTL, .write 1 exTM, .write 2 exTR]) (m1 := exV) (m2 := exV) (out := FMpo.fresh 3) rfl exV_op exV_op
    (G := opMat 3 [exTL, exTM, exTR]) (Or.inr ⟨rfl, ⟨0, rfl⟩, rfl⟩) (fun _ => none) (fun _ => none)
  exact ⟨z, O', e, io, h1, hD 3 fun T => ⟨Nat.min_le_left _ _, Nat.min_le_left _ _⟩⟩

/-- The violation on two sites: an eighth of the operator `exTL·exTR` as a guess has a squared norm that is not a natural number. -/
def exHalf : FMpo Bool ℚ := ⟨[some (scaleTen (1 / 8) exTL), some exTR], [.none, .none], -1⟩

theorem exHalf_norm : Matrix.trace (opMat 2 [scaleTen (1 / 8) exTL, exTR] * (opMat 2 [scaleTen (1 / 8) exTL, exTR]).conjTranspose) = 15 / 16 := by
  decide +kernel

example : ∃ z, FMpo.varProduct (qrE pairEnum) (svdE pairEnum) (splitRE pairEnum 3) (splitLE pairEnum 3) (fun _ => 0) (fun _ _ => true) 5 exHalf exHalf (FMpo.fresh 2)
      (fun _ => none) (fun _ => none) = .ok z ∧ IsOp (N := 2) z.out (opMat 2 [scaleTen (1 / 8) exTL, exTR]) ∧ z.out.center = 1 ∧
    ∃ t, z.out.slots[0]? = some (some t) ∧ z.out.flags[0]? = some .left ∧ ¬ LeftIso t := by
  have hop : IsOp (N := 2) exHalf (opMat 2 [scaleTen (1 / 8) exTL, exTR]) :=
    ⟨[scaleTen (1 / 8) exTL, exTR], rfl, rfl, linked_mk rfl (List.IsChain.singleton _), rfl, rfl, rfl, rfl⟩
  obtain ⟨z, e, io, c, -, h⟩ := C44_no_update (N := 2) (qrE_spec (K := ℚ) pairEnum) (svdE_spec pairEnum) (tsvdE_spec pairEnum 3) (splitRE pairEnum 3) (splitLE pairEnum 3)
    (fun _ => 0) (fun _ _ => true) (sweeps := 5) (by omega) (Or.inl rfl) (nrm := fun t => (1, t))
    (cs := [.write 0 (scaleTen (1 / 8) exTL), .write 1 exTR]) (m1 := exHalf) (m2 := exHalf) (out := FMpo.fresh 2) rfl (by simp) (by simp) hop hop
    (G := opMat 2 [scaleTen (1 / 8) exTL, exTR]) (Or.inr ⟨rfl, ⟨0, rfl⟩, rfl⟩) (fun _ => none) (fun _ => none)
  refine ⟨z, e, io, c, h fun n hn => ?_⟩
  rw [exHalf_norm] at hn
  have h2 : (15 : ℚ) = ((16 * n : Nat) : ℚ) := by push_cast; linarith
  have h3 : (15 : Nat) = 16 * n := by exact_mod_cast h2
  omega

end Verif.Props
