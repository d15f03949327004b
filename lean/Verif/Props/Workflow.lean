import Verif.Props.WorkflowSpec
import Verif.Props.MpsIo
import Verif.Props.MpsInit
import Verif.Props.HamEnergy
import Verif.Props.Static
import Verif.Props.DmrgHam
import Verif.Props.HamAll
import Verif.Props.VmpsObj
/-
C92: whole calculations with fermions and spins.
-/
namespace Verif.Props
open Verif.Mpo Verif.Mps Verif.Disk Verif.Fock Verif.Algo Verif.Mpi Matrix

section
variable {Q σ K : Type} [AddCommGroup Q] [CommRing K] [StarRing K] [Fintype σ] [DecidableEq σ]

theorem initCalls_noLoad (ts : List (QTen Q σ)) : ∀ c ∈ (initCalls ts : List (Mps.Call σ K)), ∀ i u, c ≠ .load i u := by
  intro c hc i u
  simp only [initCalls, List.mem_append, List.mem_map, List.mem_singleton] at hc
  rcases hc with (⟨_, _, rfl⟩ | ⟨_, _, rfl⟩) | rfl <;> simp

/-- `init_state` with the canonical form of the tensors. -/
theorem init_canon {qr svd : Ten σ K → Ten σ K × Mat K} (H : QRSpec qr) (H' : SVDSpec svd) {n : Nat} (ts : List (QTen Q σ)) (hts : ts.length = n) (hn : 1 ≤ n) :
    ∃ m' ts', FMps.history qr svd n (initCalls ts) = .ok m' ∧ m'.flags = mixedFlags n 0 ∧ m'.slots = ts'.map some ∧ ts'.length = n ∧ Linked ts' ∧ headL ts' = 1 ∧ lastR ts' = 1 ∧
      (∀ j u, 0 < j → ts'[j]? = some u → RightIso u) ∧ ∀ ss, ss.length = n → amp ts' ss 0 0 = if ss = ts.map (·.lab) then 1 else 0 := by
  have hist : FMps.history qr svd n [] = .ok (FMps.fresh n) := rfl
  have hsz : (FMps.fresh n : FMps σ K).slots.length = n := by simp [FMps.fresh]
  obtain ⟨m1, e1, h1⟩ := deallocs_ok qr svd n (List.range ts.length) (FMps.fresh n) hsz (by simp [hts])
  obtain ⟨m2, e2, h2⟩ := writes_ok qr svd n m1 h1 (ts.map (QTen.ten (K := K))) (by simp [hts])
  have hz : (ts.zipIdx.map (fun p => Call.write p.2 (p.1.ten (K := K)))) =
      ((ts.map (QTen.ten (K := K))).zipIdx.map (fun p => Call.write p.2 p.1)) := by
    rw [List.zipIdx_map, List.map_map]; rfl
  have hist2 : FMps.history qr svd n ((List.range ts.length).map Call.dealloc ++
      ts.zipIdx.map (fun p => Call.write p.2 (p.1.ten (K := K)))) = .ok m2 := by
    unfold FMps.history
    rw [List.foldlM_append, e1]
    show (List.foldlM (FMps.call qr svd) m1 _) = _
    rw [hz]; exact e2
  have full2 : m2.slots = (ts.map (QTen.ten (K := K))).map some := by rw [h2, List.drop_eq_nil_of_le (by simp [h1, hts]), List.append_nil]
  obtain ⟨m', ts', e, c, f, s, lk, q, -, -⟩ := C14_centralize H H' hist2 full2 (linked_product ts) (t := 0) hn
  have nl := initCalls_noLoad (K := K) ts
  have eh : FMps.history qr svd n (initCalls ts) = .ok m' := e
  have T := history_truthful H H' (fun c hc => by
    have := nl c hc
    cases c with
    | load i u => exact absurd rfl (this i u)
    | _ => trivial) eh
  have hlen : ts'.length = n := by rw [q.1]; simp [hts]
  have hh : headL (ts.map (QTen.ten (K := K))) = 1 := by
    cases ts with
    | nil => simp at hts; omega
    | cons t ts => rfl
  have hl : lastR (ts.map (QTen.ten (K := K))) = 1 := by
    unfold lastR
    rw [List.getLast?_eq_getElem?, List.getElem?_eq_getElem (by simp; omega)]
    simp [QTen.ten]
  refine ⟨m', ts', eh, f, s, hlen, lk, by rw [q.2.1, hh], by rw [q.2.2.1, hl], fun j u hj hu => ?_, fun ss hss => ?_⟩
  · have hjn : j < n := by rw [← hlen]; exact (List.getElem?_eq_some_iff.mp hu).1
    refine (T j u (by rw [s, List.getElem?_map, hu]; rfl)).2 ?_
    rw [f]; simp [mixedFlags, hjn, show ¬ j = 0 by omega]
  · rw [q.2.2.2 ss 0 0 (by rw [hh]; omega), amp_product ts ss (by omega)]
    simp [eq_comm]
end

section
variable {𝕜 : Type} [RCLike 𝕜] {d N : Nat} {dec : Fin d → Occ}

/-- The state of a product state. -/
noncomputable def basisV (labs : Fin N → Fin d) : ChainV (Fin d) 𝕜 N := WithLp.toLp 2 fun s => if s = labs then 1 else 0

theorem basis_norm (labs : Fin N → Fin d) : ‖(basisV labs : ChainV (Fin d) 𝕜 N)‖ = 1 := by
  have : (basisV labs : ChainV (Fin d) 𝕜 N) = EuclideanSpace.single labs 1 := by
    ext s
    simp [basisV, Pi.single_apply]
  rw [this]; simp

theorem basis_energy (H' : Matrix (Fin N → Fin d) (Fin N → Fin d) 𝕜) (labs : Fin N → Fin d) : Mps.expect H' (basisV labs : ChainV (Fin d) 𝕜 N) = RCLike.re (H' labs labs) := by
  have : (basisV labs : ChainV (Fin d) 𝕜 N) = EuclideanSpace.single labs 1 := by
    ext s
    simp [basisV, Pi.single_apply]
  rw [this]
  unfold Mps.expect
  congr 1
  simp [EuclideanSpace.inner_single_left, Matrix.toEuclideanLin_apply]

theorem range_of_closed {t : Nat → Ten (Fin d) 𝕜} (hN : 0 < N) (h : Closed N t) : Linked ((List.range N).map t) ∧ headL ((List.range N).map t) = 1 ∧ lastR ((List.range N).map t) = 1 := by
  refine ⟨closed_linked h, ?_⟩
  obtain ⟨n, rfl⟩ : ∃ n, N = n + 1 := ⟨N - 1, by omega⟩
  refine ⟨?_, ?_⟩
  · rw [List.range_succ_eq_map, List.map_cons]; exact h.1
  · unfold lastR
    rw [List.range_succ, List.map_append]
    simpa using h.2.1

/-- `DirectStateInitMps` on a new MPS and `Dump(path, true)`: the files hold the product state with its centre at site 0. -/
theorem product_start {qr svd : Ten (Fin d) 𝕜 → Ten (Fin d) 𝕜 × Mat 𝕜} (hq : QRSpec qr) (hs : SVDSpec svd) (hN : 1 ≤ N) {Q : Type} [AddCommGroup Q] (qn : Nat → Fin d → Q) (labs : Fin N → Fin d)
    (dir0 : MpsDir (Fin d) 𝕜) :
    ∃ m1 m2 dir, ∃ φ : Nat → LTen (Fin d) 𝕜, FMps.history qr svd N (initCalls (directInit qn (List.ofFn labs))) = .ok m1 ∧ m1.dump true dir0 = .ok (m2, dir) ∧
      m2.slots = List.replicate N Option.none ∧ m1.flags = mixedFlags N 0 ∧ m2.flags = m1.flags ∧ m2.center = m1.center ∧ (∀ j, j < N → asFiles dir j = .whole (φ j)) ∧ Mps.Canon N 0 (tens φ) ∧ stateV N (tens φ) = basisV labs := by
  obtain ⟨b, -, hl, -, -, -, hlab⟩ := C42_direct qn (List.ofFn labs) (by simp; omega)
  obtain ⟨m1, ts, i1, i0, i2, i3, i4, i5, i6, i7, i8⟩ := init_canon (K := 𝕜) hq hs (n := N) (directInit qn (List.ofFn labs)) (by rw [hl]; simp) (by omega)
  rw [hlab] at i8
  obtain ⟨m2, dir, d1, d2, -, df, dc, d3⟩ := C91_dump true i2 dir0
  obtain ⟨φ, g⟩ : ∃ φ : Nat → LTen (Fin d) 𝕜, ∀ j (h : j < ts.length), φ j = ⟨ts[j], Option.none⟩ :=
    ⟨fun j => ⟨ts.getD j noTen, Option.none⟩, fun j h => by simp [h]⟩
  have hψ : (List.range N).map (tens φ) = ts := by
    apply List.ext_getElem (by simp [i3])
    intro j h1 h2
    simp only [List.getElem_map, List.getElem_range]
    show (φ j).ten = _
    rw [g j h2]
  refine ⟨m1, m2, dir, φ, i1, d1, by rw [d3, if_pos rfl, i3], i0, df, dc, fun j hj => ?_, ?_, ?_⟩
  · unfold asFiles
    rw [d2 j ts[j] (List.getElem?_eq_getElem (by omega)), g j (by omega)]
  · refine ⟨⟨?_, ?_, fun j hj => ?_⟩, fun j hj => absurd hj (by omega), fun j hj hj' => ?_⟩
    · show (φ 0).ten.l = 1
      rw [g 0 (by omega)]
      cases ts with
      | nil => simp at i3; omega
      | cons a d => exact i5
    · show (φ (N - 1)).ten.r = 1
      rw [g (N - 1) (by omega)]
      refine Eq.trans ?_ i6
      unfold lastR
      rw [List.getLast?_eq_getElem?, List.getElem?_eq_getElem (by omega)]
      simp [i3]
    · show (φ j).ten.r = (φ (j + 1)).ten.l
      rw [g j (by omega), g (j + 1) (by omega)]
      exact (List.isChain_iff_getElem.mp i4) j (by omega)
    · show RightIso (φ j).ten
      rw [g j (by omega)]
      exact i7 j _ hj (List.getElem?_eq_getElem (by omega))
  · unfold stateV basisV
    congr 1
    funext s
    rw [show amp ((List.range N).map (tens φ)) (List.ofFn s) 0 0 = amp ts (List.ofFn s) 0 0 from congrArg (fun l => amp l (List.ofFn s) 0 0) hψ, i8 (List.ofFn s) (by simp)]
    by_cases hsl : s = labs
    · subst hsl; simp
    · rw [if_neg hsl, if_neg fun e => hsl (List.ofFn_injective e)]

theorem basis_ne {φ : Nat → Ten (Fin d) 𝕜} {labs : Fin N → Fin d} (h : stateV N φ = basisV labs) : stateV N φ ≠ 0 := by
  rw [h]; intro h0
  have := basis_norm (𝕜 := 𝕜) labs
  rw [h0] at this; simp at this

/-- What `Load` gives when the files hold an MPS. -/
theorem asDir_files {ψ : Nat → LTen (Fin d) 𝕜} {f : Nat → File (LTen (Fin d) 𝕜)} (hf : ∀ j, j < N → f j = .whole (ψ j)) (i : Nat) (t : Ten (Fin d) 𝕜)
    (ht : ((List.range N).map (tens ψ))[i]? = some t) : i < N ∧ t = tens ψ i ∧ asDir f i = .whole t := by
  have hi : i < N := by have := (List.getElem?_eq_some_iff.mp ht).1; simpa using this
  rw [List.getElem?_map, List.getElem?_range hi] at ht
  cases ht
  refine ⟨hi, rfl, ?_⟩
  unfold asDir
  rw [hf i hi]; rfl

/-- `Load` of the files of an MPS into a new one. -/
theorem load_user (qr svd : Ten (Fin d) 𝕜 → Ten (Fin d) 𝕜 × Mat 𝕜) (hN : 1 ≤ N) {ψ : Nat → LTen (Fin d) 𝕜} {f : Nat → File (LTen (Fin d) 𝕜)} (hf : ∀ j, j < N → f j = .whole (ψ j))
    (hc : Closed N (tens ψ)) : ∃ r, (FMps.fresh N).loadDir (asDir f) = .ok r ∧ UserMps qr svd N r ((List.range N).map (tens ψ)) := by
  obtain ⟨f1, f2, f3⟩ := range_of_closed (by omega) hc
  refine ⟨⟨((List.range N).map (tens ψ)).map some, List.replicate N .none, -1⟩, ?_, ⟨writes ((List.range N).map (tens ψ)), ?_, ?_⟩, rfl, f1, f2, f3⟩
  · rw [C91_load (FMps.fresh N) (ts := (List.range N).map (tens ψ)) (by simp [FMps.fresh, FMps.size])]
    · rfl
    · exact fun i t ht => (asDir_files hf i t ht).2.2
  · rw [writes_prefix qr svd _ N (by simp)]; simp
  · refine .inl ?_
    intro c hc i u
    simp only [writes, List.mem_mapIdx] at hc
    obtain ⟨j, hj, rfl⟩ := hc
    simp

/-- `Load` into the MPS that was dumped, whose flags say that the centre is at site 0. -/
theorem reload_user {qr svd : Ten (Fin d) 𝕜 → Ten (Fin d) 𝕜 × Mat 𝕜} (hN : 1 ≤ N) {ψ : Nat → LTen (Fin d) 𝕜} {f : Nat → File (LTen (Fin d) 𝕜)} (hf : ∀ j, j < N → f j = .whole (ψ j))
    (hc : Mps.Canon N 0 (tens ψ)) {cs : List (Mps.Call (Fin d) 𝕜)} {m1 m2 : FMps (Fin d) 𝕜} (hist : FMps.history qr svd N cs = .ok m1) (hs : m2.slots = List.replicate N Option.none)
    (hfl : m1.flags = mixedFlags N 0) (hf2 : m2.flags = m1.flags) (hc2 : m2.center = m1.center) :
    ∃ r, m2.loadDir (asDir f) = .ok r ∧ UserMps qr svd N r ((List.range N).map (tens ψ)) := by
  obtain ⟨f1, f2, f3⟩ := range_of_closed (by omega) hc.1
  obtain ⟨r, e1, e2, e3, e4⟩ := C91_reload hist (ts := (List.range N).map (tens ψ)) (by simp) (fun i t ht => (asDir_files hf i t ht).2.2) (fun i t ht => by
    obtain ⟨hi, rfl, -⟩ := asDir_files hf i t ht
    rw [hfl]
    refine ⟨fun h => ?_, fun h => hc.2.2 i ?_ hi⟩
    · simp [mixedFlags, hi] at h
      split at h <;> cases h
    · by_contra h0
      simp [mixedFlags, hi, h0] at h)
  refine ⟨r, ?_, ⟨_, e3, e4⟩, e2, f1, f2, f3⟩
  have hm1 : m1.size = N := (history_inv hist).2
  rw [C91_load m1 (by simpa using hm1.symm) fun i t ht => (asDir_files hf i t ht).2.2] at e1
  rw [C91_load m2 (by simp [FMps.size, hs]) fun i t ht => (asDir_files hf i t ht).2.2, hf2, hc2, e1]

/-- `Load` into an emptied MPS whose flag at `i` says LEFT, if the tensor of that site is left canonical. -/
theorem marked_user {qr svd : Ten (Fin d) 𝕜 → Ten (Fin d) 𝕜 × Mat 𝕜} {ψ : Nat → LTen (Fin d) 𝕜} {f : Nat → File (LTen (Fin d) 𝕜)} (hf : ∀ j, j < N → f j = .whole (ψ j)) {c i : Nat}
    (hc : Mps.Canon N c (tens ψ)) (hi : i < c) (hiN : i + 1 < N) :
    ∃ r, (markedLeft N i).loadDir (asDir f) = .ok r ∧ UserMps qr svd N r ((List.range N).map (tens ψ)) := by
  obtain ⟨f1, f2, f3⟩ := range_of_closed (by omega) hc.1
  let ts := (List.range N).map (tens ψ)
  have hg : ∀ j, j < N → (ts.map some)[j]? = some (some (tens ψ j)) := fun j hj => by simp [ts, List.getElem?_range hj]
  obtain ⟨m1, hist, hfl, hce⟩ : ∃ m1, FMps.history qr svd N (writes ts ++ [.leftTen i]) = .ok m1 ∧ m1.flags = ((List.replicate N Cano.none).set i .left).set (i + 1) .none ∧ m1.center = -1 := by
    have hw : FMps.history qr svd N (writes ts) = .ok ⟨ts.map some, List.replicate N .none, -1⟩ := by
      rw [writes_prefix qr svd _ N (by simp [ts])]; simp [ts]
    unfold FMps.history at hw ⊢
    rw [List.foldlM_append, hw]
    refine ⟨⟨((ts.map some).set i (some (qr (tens ψ i)).1)).set (i + 1) (some (mulL (qr (tens ψ i)).2 (qr (tens ψ i)).1.r (tens ψ (i + 1)))),
      ((List.replicate N Cano.none).set i .left).set (i + 1) .none, -1⟩, ?_, rfl, rfl⟩
    have e : (tens ψ i).r = (tens ψ (i + 1)).l := hc.1.2.2 i hiN
    have hl : FMps.leftTen qr ⟨ts.map some, List.replicate N .none, -1⟩ i = .ok ⟨((ts.map some).set i (some (qr (tens ψ i)).1)).set (i + 1)
        (some (mulL (qr (tens ψ i)).2 (qr (tens ψ i)).1.r (tens ψ (i + 1)))), ((List.replicate N Cano.none).set i .left).set (i + 1) .none, -1⟩ := by
      unfold FMps.leftTen
      simp only [FMps.size, hg i (by omega), hg (i + 1) hiN]
      rw [if_pos (by simp [ts]; omega), if_pos e]
    show (do let m ← FMps.leftTen qr ⟨ts.map some, List.replicate N .none, -1⟩ i; Except.ok m) = _
    rw [hl]; rfl
  have hm : m1.flags = (List.replicate N Cano.none).set i .left := by
    rw [hfl]
    apply List.ext_getElem?
    intro j
    rw [set_none]
    split
    · subst_vars
      rw [List.getElem?_set_ne (by omega)]
      simp only [List.getElem?_replicate]
      split <;> rfl
    · rfl
  obtain ⟨r, e1, e2, e3, e4⟩ := C91_reload hist (ts := ts) (by simp [ts]) (fun i t ht => (asDir_files hf i t ht).2.2) (fun j t ht => by
    obtain ⟨hj, rfl, -⟩ := asDir_files hf j t ht
    rw [hm]
    by_cases hji : i = j
    · subst hji
      exact ⟨fun _ => hc.2.1 i hi, fun h => by simp [hj] at h⟩
    · rw [List.getElem?_set_ne hji, List.getElem?_replicate, if_pos hj]
      exact ⟨fun h => absurd (Option.some.inj h) (by simp), fun h => absurd (Option.some.inj h) (by simp)⟩)
  refine ⟨r, ?_, ⟨_, e3, e4⟩, e2, f1, f2, f3⟩
  have hm1 : m1.size = N := (history_inv hist).2
  rw [C91_load m1 (ts := ts) (by simpa [ts] using hm1.symm) fun i t ht => (asDir_files hf i t ht).2.2, hm, hce] at e1
  rw [C91_load (markedLeft N i) (ts := ts) (by simp [ts, markedLeft, FMps.size]) fun i t ht => (asDir_files hf i t ht).2.2, ← e1]
  rfl

theorem loaded_of_user {qr svd : Ten (Fin d) 𝕜 → Ten (Fin d) 𝕜 × Mat 𝕜} (hq : QRSpec qr) (hs : SVDSpec svd) {ψ : Nat → LTen (Fin d) 𝕜} {f : Nat → File (LTen (Fin d) 𝕜)} {m : FMps (Fin d) 𝕜}
    (h : ∃ r, m.loadDir (asDir f) = .ok r ∧ UserMps qr svd N r ((List.range N).map (tens ψ))) : Loaded qr svd m (asDir f) (stateV N (tens ψ)) := by
  obtain ⟨r, hr, hu⟩ := h
  refine ⟨r, hr, fun measure value hm => ?_⟩
  obtain ⟨r', ts', er, -⟩ := hm qr svd _ _ hq hs hu
  exact ⟨r', er⟩

/-- From a program that does what it should to a canonical MPS. -/
theorem calculates_of {ok : Occ → Prop} (hd : Function.Injective dec) (hok : ∀ k, ok (dec k)) {H : Matrix (Conf N) (Conf N) 𝕜} {w : Nat → Ten (Fin d × Fin d) 𝕜}
    (hH : opM N w = H.submatrix (fun s i => dec (s i)) (fun s i => dec (s i))) (hN : 3 ≤ N) {prog : (Nat → File (LTen (Fin d) 𝕜)) → (Nat → File (LTen (Fin d) 𝕜)) → Prop} {site c : Nat} (hsite : site < N)
    {into : FMps (Fin d) 𝕜 → FMps (Fin d) 𝕜 → Prop} {nocut : Prop}
    (hprog : ∀ (f : Nat → File (LTen (Fin d) 𝕜)) (φ : Nat → LTen (Fin d) 𝕜), (∀ j, j < N → f j = .whole (φ j)) → Mps.Canon N 0 (tens φ) → stateV N (tens φ) ≠ 0 →
      ∃ files ψ e, prog f files ∧ (∀ j, j < N → files j = .whole (ψ j)) ∧ Mps.Canon N c (tens ψ) ∧ (ψ site).e0 = some e ∧ stateV N (tens ψ) ≠ 0 ∧
        (∀ E0, (∀ Φ : ChainV (Fin d) 𝕜 N, E0 * ‖Φ‖ ^ 2 ≤ Mps.expect (opM N w) Φ) → E0 ≤ e) ∧
        (nocut → ‖stateV N (tens ψ)‖ = 1 ∧ Mps.expect (opM N w) (stateV N (tens ψ)) = e ∧ e * ‖stateV N (tens φ)‖ ^ 2 ≤ Mps.expect (opM N w) (stateV N (tens φ))))
    (hinto : ∀ m m', m.slots.length = N → m.flags.length = N → into m m' → m' = FMps.fresh N ∨ c = 0 ∧ m' = m ∨ ∃ i, i < c ∧ i + 1 < N ∧ m' = markedLeft N i) : Calculates N dec ok H prog site into nocut := by
  intro qr svd hq hs Q _ qn labs dir0
  obtain ⟨m1, m2, dir, φ, i1, d1, d3, df, df', dc, hdisk, hcan, hst⟩ := product_start hq hs (by omega) qn labs dir0
  obtain ⟨files, ψ, e, a1, a2, a3, a4, a5, a6, a7⟩ := hprog (asFiles dir) φ hdisk hcan (basis_ne hst)
  refine ⟨m1, m2, dir, files, e, stateV N (tens ψ), i1, d1, d3, a1, ⟨_, a2 _ hsite, a4⟩, fun m hm => ?_, ?_, a5, ?_⟩
  · rcases hinto m2 m (by simp [d3]) (by simp [df', df, mixedFlags]) hm with rfl | ⟨rfl, rfl⟩ | ⟨i, hi, hi', rfl⟩
    · exact loaded_of_user hq hs (load_user qr svd (by omega) a2 a3.1)
    · exact loaded_of_user hq hs (reload_user (by omega) a2 a3 i1 d3 df df' dc)
    · exact loaded_of_user hq hs (marked_user a2 a3 hi hi')
  · exact fun E0 hE => a6 E0 fun Φ => lower_chain hd hok hH hE Φ
  · intro hcut
    obtain ⟨c1, c2, c3⟩ := a7 hcut
    rw [hst, basis_norm, basis_energy, hH] at c3
    rw [inFock_norm hd, inFock_energy hd H hH]
    exact ⟨c1, c2, by simpa using c3⟩

theorem calc_vmps {ok : Occ → Prop} (hd : Function.Injective dec) (hok : ∀ k, ok (dec k)) {H : Matrix (Conf N) (Conf N) 𝕜} (hh : H.IsHermitian)
    {w : Nat → Ten (Fin d × Fin d) 𝕜} (hc : Closed N w) (hH : opM N w = H.submatrix (fun s i => dec (s i)) (fun s i => dec (s i))) (hN : 3 ≤ N) : CalcVmps N w dec ok H := by
  rintro P rfl h1 h2 h3 h4 k hk
  have hP : ParOK N P := ⟨hc, by rw [hH]; exact hh.submatrix _, h1, h2, h3, h4⟩
  refine calculates_of (c := 1) hd hok hH hN (by omega) (fun f φ hf hcan hz => ?_) (fun m m' l1 l2 hm => .inl ?_)
  · obtain ⟨s', ψ', e, a1, a2, a3, a4, a5, -, a7, a8⟩ := C62_run hP hN false hk 0 (d := (⟨f, fun _ => .gone, fun _ => .gone⟩ : Dsk (LTen (Fin d) 𝕜) (Env3 𝕜))) hf (fun h => by cases h) (.inl rfl) hcan hz
    exact ⟨_, ψ', e, ⟨s', a1, rfl⟩, a2, a3, a5, a4, a7, a8⟩
  · rcases hm with rfl | rfl
    · rfl
    · exact after_fresh l1 l2 fun _ hi => touch_vmps hN hk false hi

theorem calc_vmpsMpi {ok : Occ → Prop} (hd : Function.Injective dec) (hok : ∀ k, ok (dec k)) {H : Matrix (Conf N) (Conf N) 𝕜} (hh : H.IsHermitian)
    {w : Nat → Ten (Fin d × Fin d) 𝕜} (hc : Closed N w) (hH : opM N w = H.submatrix (fun s i => dec (s i)) (fun s i => dec (s i))) (hN : 3 ≤ N) : CalcVmpsMpi N w dec ok H := by
  rintro P SL VL L lact W qr rfl h1 h2 hq h3 hT h4 hW hL fuse dmax bl br k hk
  have hP : ParOK N P := ⟨hc, by rw [hH]; exact hh.submatrix _, h1, h2, h3, h4⟩
  obtain ⟨b1, b2⟩ := bounds_ok bl br hN
  refine calculates_of (c := lbOf bl N + 1) hd hok hH hN (by omega) (fun f φ hf hcan hz => ?_) (fun m m' l1 l2 hm => .inl ?_)
  · obtain ⟨s', ψ', e, a1, a2, a3, a4, a5, -, a7, a8⟩ := C79_variational hW hP hT hL hN hq fuse dmax bl br hk 0 (d := (⟨f, fun _ => .gone, fun _ => .gone⟩ : Dsk (LTen (Fin d) 𝕜) (Env3 𝕜)))
      (blank_noTensors 0) hf (fun _ h => by cases h) (fun _ _ _ _ h => by cases h) (Nat.zero_le _) hcan hz
    exact ⟨_, ψ', e, ⟨s', a1, rfl⟩, a2, a3, a5, a4, a7, a8⟩
  · rcases hm with rfl | rfl
    · rfl
    · exact after_fresh l1 l2 fun _ hi => touch_vmpsMpi (by omega) hk true hi

theorem ops_missing {P : DmrgPar (Fin d) 𝕜} (hc : OpMatsOK N P.m) (hN : 3 ≤ N) (bl br : Nat → Bool) (φ : Nat → LTen (Fin d) 𝕜) (f : Nat → File (LTen (Fin d) 𝕜)) :
    OpsReusable (dmrgAlg P) (bondsOf P) N (lbOf bl N) (rbOf br N) φ (⟨f, fun _ _ => .gone, fun _ _ => .gone⟩ : CDsk (LTen (Fin d) 𝕜) (Option (BOp 𝕜))) := by
  obtain ⟨b1, b2⟩ := bounds_ok bl br hN
  intro h
  exfalso
  unfold needOps at h
  rw [List.any_eq_false] at h
  have h := h (N - 1 - rbOf br N) (by rw [List.mem_range'_1]; omega)
  simp only [Bool.not_eq_true, List.any_eq_false] at h
  have hpos : 0 < bondsOf P (N - (N - 1 - rbOf br N)) := by
    show 0 < (P.m _).rows
    rw [show N - (N - 1 - rbOf br N) = rbOf br N + 1 by omega, ← hc.fit]
    exact hc.pos _ b2
  exact absurd (h 0 (List.mem_range.mpr hpos)) (by simp [File.present])

theorem calc_dmrg {ok : Occ → Prop} (hd : Function.Injective dec) (hok : ∀ k, ok (dec k)) {H : Matrix (Conf N) (Conf N) 𝕜} (hh : H.IsHermitian)
    {m : Nat → OpMat (Fin d) 𝕜} (hc : OpMatsOK N m) (hH : opM N (fun i => (m i).ten) = H.submatrix (fun s i => dec (s i)) (fun s i => dec (s i))) (hN : 3 ≤ N) : CalcDmrg N m dec ok H := by
  rintro P rfl h1 h2 h3 h4 h5 bl br n k sg hsg h0 hn hem hno hend
  have hP : DmrgOK N P := ⟨hc, by show (opM N fun i => (P.m i).ten).IsHermitian; rw [hH]; exact hh.submatrix _, h1, h2, h3, h4, h5⟩
  obtain ⟨b1, b2⟩ := bounds_ok bl br hN
  refine calculates_of (c := 0) hd hok hH hN (by omega) (fun f φ hf hcan hz => ?_) (fun m m' l1 l2 hm => hm.imp_right fun h => .inl ⟨rfl, h⟩)
  obtain ⟨s', ψ', e, a1, a2, a3, a4, a5, a6⟩ := C75_run hP hN bl br 0 (d := (⟨f, fun _ _ => .gone, fun _ _ => .gone⟩ : CDsk (LTen (Fin d) 𝕜) (Option (BOp 𝕜))))
    hf (ops_missing hc hN bl br φ f) (Nat.zero_le _) hcan hz n k hsg h0 hn hem hno (hend.imp_right fun h => ⟨h0, h⟩)
  exact ⟨_, ψ', e, ⟨s', a1, rfl⟩, a2, a3, a4, a6.nz, a6.above, a6.exact⟩

theorem calc_dmrgMpi {ok : Occ → Prop} (hd : Function.Injective dec) (hok : ∀ k, ok (dec k)) {H : Matrix (Conf N) (Conf N) 𝕜} (hh : H.IsHermitian)
    {m : Nat → OpMat (Fin d) 𝕜} (hc : OpMatsOK N m) (hH : opM N (fun i => (m i).ten) = H.submatrix (fun s i => dec (s i)) (fun s i => dec (s i))) (hN : 3 ≤ N) : CalcDmrgMpi N m dec ok H := by
  rintro P SL VL S lact W rfl h1 h2 h3 h4 hT h5 hW hS bl br k hk
  have hP : DmrgOK N P := ⟨hc, by show (opM N fun i => (P.m i).ten).IsHermitian; rw [hH]; exact hh.submatrix _, h1, h2, h3, h4, h5⟩
  obtain ⟨b1, b2⟩ := bounds_ok bl br hN
  refine calculates_of (c := 0) hd hok hH hN (by omega) (fun f φ hf hcan hz => ?_) (fun m m' l1 l2 hm => hm.imp_right fun h => .inl ⟨rfl, h⟩)
  obtain ⟨s', ψ', e, a1, a2, a3, a4, a5, a6⟩ := C76_variational hW hP hT hS hN bl br 0 (d := (⟨f, fun _ _ => .gone, fun _ _ => .gone⟩ : CDsk (LTen (Fin d) 𝕜) (Option (BOp 𝕜))))
    hf (ops_missing hc hN bl br φ f) (Nat.zero_le _) hcan hz hk
  exact ⟨_, ψ', e, ⟨s', a1, rfl⟩, a2, a3, a4, a6.nz, a6.above, a6.exact⟩

end

section
variable {𝕜 : Type} [RCLike 𝕜] [DecidableEq 𝕜] {N : Nat}

theorem ham_real {On : Type} {ts : List (HamTerm On N 𝕜)} (hr : ∀ a ∈ ts, star a.coef = a.coef) : ∀ a ∈ ts, a.Real id := fun a ha => by
  have := hr a ha
  cases a <;> first | exact this | exact this.symm

/-- **C92**, Hubbard models: write a Hamiltonian as calls of the builders, `Gen` the MPO, start from a product state, optimise with `TwoSiteFiniteVMPS`, serial or parallel, load and measure. -/
theorem C92_hubbard [GenTypes 𝕜 (Mpo.Op 4 𝕜)] (h : ExactTypes 4 𝕜) (im : 𝕜) (sym : Sym) (ts : List (HamTerm HubOn N 𝕜)) (hp : ∀ a ∈ ts, a.Proper) (h1 : OneEach ts)
    (hs : ∀ a ∈ ts, a.coef = 0 ∨ ∀ c ∈ [a.coef, -a.coef, a.coef / 2], GenTypes.tooSmall (Mpo.Op 4 𝕜) c = false) (hne : ∃ a ∈ ts, a.coef ≠ 0)
    (hr : ∀ a ∈ ts, star a.coef = a.coef) (compress : Bool) (hN : 3 ≤ N) :
    ∃ g ws, ts.foldlM (addHubTerm (hubOps im (hubSite sym))) (Generator.new (uniformIds 4 N)) = .ok g ∧
      g.genMpo (opDiv (hubSite sym).bond) 0 compress = .ok ws ∧ ws.length = N ∧
      CalcVmps N (mpoW ws) (hubOcc (hubSite sym)) (fun _ => True) (ts.map (HamTerm.fock HubOn.fock id)).sum ∧
      CalcVmpsMpi N (mpoW ws) (hubOcc (hubSite sym)) (fun _ => True) (ts.map (HamTerm.fock HubOn.fock id)).sum := by
  obtain ⟨g, ws, e1, e2, e3, e4, e5⟩ := C74_hubbard_mpo h im sym ts hp h1 hs hne compress
  have hh := ham_herm hubOn_herm hp (ham_real hr)
  exact ⟨g, ws, e1, e2, e3, calc_vmps (hubOcc_inj sym) (fun _ => trivial) hh e4 e5 hN, calc_vmpsMpi (hubOcc_inj sym) (fun _ => trivial) hh e4 e5 hN⟩

/-- **C92**, t-J models. -/
theorem C92_tJ [GenTypes 𝕜 (Mpo.Op 3 𝕜)] (h : ExactTypes 3 𝕜) (sym : Sym) (ts : List (HamTerm TjOn N 𝕜)) (hp : ∀ a ∈ ts, a.Proper) (h1 : OneEach ts)
    (hs : ∀ a ∈ ts, a.coef = 0 ∨ ∀ c ∈ [a.coef, -a.coef, -star a.coef, a.coef / 2], GenTypes.tooSmall (Mpo.Op 3 𝕜) c = false) (hne : ∃ a ∈ ts, a.coef ≠ 0)
    (hr : ∀ a ∈ ts, a.Real star) (compress : Bool) (hN : 3 ≤ N) :
    ∃ g ws, ts.foldlM (addTjTerm (tjOps (tjSite sym))) (Generator.new (uniformIds 3 N)) = .ok g ∧
      g.genMpo (opDiv (tjSite sym).bond) 0 compress = .ok ws ∧ ws.length = N ∧
      CalcVmps N (mpoW ws) (tjOcc (tjSite sym)) (fun o => o ≠ (true, true)) (ts.map (HamTerm.fock TjOn.fock star)).sum ∧
      CalcVmpsMpi N (mpoW ws) (tjOcc (tjSite sym)) (fun o => o ≠ (true, true)) (ts.map (HamTerm.fock TjOn.fock star)).sum := by
  obtain ⟨g, ws, e1, e2, e3, e4, e5⟩ := C74_tJ_mpo h sym ts hp h1 hs hne compress
  exact ⟨g, ws, e1, e2, e3, calc_vmps (tjOcc_inj sym) (by cases sym <;> decide) (ham_herm tjOn_herm hp hr) e4 e5 hN,
    calc_vmpsMpi (tjOcc_inj sym) (by cases sym <;> decide) (ham_herm tjOn_herm hp hr) e4 e5 hN⟩

/-- **C92**, spin-1/2 chains. -/
theorem C92_spin [GenTypes 𝕜 (Mpo.Op 2 𝕜)] (h : ExactTypes 2 𝕜) (im : 𝕜) {sym : Sym} {st : SpinSite} (hst : spinSite sym = some st) (ts : List (SpinTerm N 𝕜))
    (hp : ∀ a ∈ ts, a.Proper) (h1 : OneField ts)
    (hs : ∀ a ∈ ts, a.coef = 0 ∨ ∀ c ∈ [a.coef, a.coef / 2], GenTypes.tooSmall (Mpo.Op 2 𝕜) c = false) (hne : ∃ a ∈ ts, a.coef ≠ 0)
    (hr : ∀ a ∈ ts, star a.coef = a.coef) (compress : Bool) (hN : 3 ≤ N) :
    ∃ g ws, ts.foldlM (addSpinTerm (spinOps im st)) (Generator.new (uniformIds 2 N)) = .ok g ∧
      g.genMpo (opDiv st.bond) 0 compress = .ok ws ∧ ws.length = N ∧
      CalcVmps N (mpoW ws) (spinOcc st) (fun o => o.1 ≠ o.2) (ts.map SpinTerm.fock).sum ∧
      CalcVmpsMpi N (mpoW ws) (spinOcc st) (fun o => o.1 ≠ o.2) (ts.map SpinTerm.fock).sum := by
  obtain ⟨g, ws, e1, e2, e3, e4, e5⟩ := C74_spin_mpo h im hst ts hp h1 hs hne compress
  exact ⟨g, ws, e1, e2, e3, calc_vmps (spinOcc_inj hst) (spinOcc_one st) (spin_herm hp hr) e4 e5 hN, calc_vmpsMpi (spinOcc_inj hst) (spinOcc_one st) (spin_herm hp hr) e4 e5 hN⟩

/-- **C92**, Hubbard models with `GenMatReprMPO` and `FiniteDMRG`, serial or parallel. -/
theorem C92_hubbard_dmrg [GenTypes 𝕜 (Mpo.Op 4 𝕜)] (h : ExactTypes 4 𝕜) (im : 𝕜) (sym : Sym) (ts : List (HamTerm HubOn N 𝕜)) (hp : ∀ a ∈ ts, a.Proper) (h1 : OneEach ts)
    (hs : ∀ a ∈ ts, a.coef = 0 ∨ ∀ c ∈ [a.coef, -a.coef, a.coef / 2], GenTypes.tooSmall (Mpo.Op 4 𝕜) c = false) (hne : ∃ a ∈ ts, a.coef ≠ 0)
    (hr : ∀ a ∈ ts, star a.coef = a.coef) (hN : 3 ≤ N) :
    ∃ g rs, ts.foldlM (addHubTerm (hubOps im (hubSite sym))) (Generator.new (uniformIds 4 N)) = .ok g ∧ g.genMatReprMpo = .ok rs ∧ rs.length = N ∧
      CalcDmrg N (opMats rs) (hubOcc (hubSite sym)) (fun _ => True) (ts.map (HamTerm.fock HubOn.fock id)).sum ∧
      CalcDmrgMpi N (opMats rs) (hubOcc (hubSite sym)) (fun _ => True) (ts.map (HamTerm.fock HubOn.fock id)).sum := by
  obtain ⟨g, l, e1, -, -, e4, -⟩ := hub_ham h im sym ts hp h1 hs hne true
  obtain ⟨rs, f1, f2, f3, f4⟩ := matRep_op (dec := hubOcc (hubSite sym)) (by omega) e4.2
  have hh := ham_herm hubOn_herm hp (ham_real hr)
  exact ⟨g, rs, e1, f1, f2, calc_dmrg (hubOcc_inj sym) (fun _ => trivial) hh f3 f4 hN, calc_dmrgMpi (hubOcc_inj sym) (fun _ => trivial) hh f3 f4 hN⟩

/-- **C92**, t-J models with `GenMatReprMPO` and `FiniteDMRG`. -/
theorem C92_tJ_dmrg [GenTypes 𝕜 (Mpo.Op 3 𝕜)] (h : ExactTypes 3 𝕜) (sym : Sym) (ts : List (HamTerm TjOn N 𝕜)) (hp : ∀ a ∈ ts, a.Proper) (h1 : OneEach ts)
    (hs : ∀ a ∈ ts, a.coef = 0 ∨ ∀ c ∈ [a.coef, -a.coef, -star a.coef, a.coef / 2], GenTypes.tooSmall (Mpo.Op 3 𝕜) c = false) (hne : ∃ a ∈ ts, a.coef ≠ 0)
    (hr : ∀ a ∈ ts, a.Real star) (hN : 3 ≤ N) :
    ∃ g rs, ts.foldlM (addTjTerm (tjOps (tjSite sym))) (Generator.new (uniformIds 3 N)) = .ok g ∧ g.genMatReprMpo = .ok rs ∧ rs.length = N ∧
      CalcDmrg N (opMats rs) (tjOcc (tjSite sym)) (fun o => o ≠ (true, true)) (ts.map (HamTerm.fock TjOn.fock star)).sum ∧
      CalcDmrgMpi N (opMats rs) (tjOcc (tjSite sym)) (fun o => o ≠ (true, true)) (ts.map (HamTerm.fock TjOn.fock star)).sum := by
  obtain ⟨g, l, e1, -, -, e4, -⟩ := tj_ham h sym ts hp h1 hs hne true
  obtain ⟨rs, f1, f2, f3, f4⟩ := matRep_op (dec := tjOcc (tjSite sym)) (by omega) e4.2
  exact ⟨g, rs, e1, f1, f2, calc_dmrg (tjOcc_inj sym) (by cases sym <;> decide) (ham_herm tjOn_herm hp hr) f3 f4 hN,
    calc_dmrgMpi (tjOcc_inj sym) (by cases sym <;> decide) (ham_herm tjOn_herm hp hr) f3 f4 hN⟩

/-- **C92**, spin-1/2 chains with `GenMatReprMPO` and `FiniteDMRG`. -/
theorem C92_spin_dmrg [GenTypes 𝕜 (Mpo.Op 2 𝕜)] (h : ExactTypes 2 𝕜) (im : 𝕜) {sym : Sym} {st : SpinSite} (hst : spinSite sym = some st) (ts : List (SpinTerm N 𝕜))
    (hp : ∀ a ∈ ts, a.Proper) (h1 : OneField ts)
    (hs : ∀ a ∈ ts, a.coef = 0 ∨ ∀ c ∈ [a.coef, a.coef / 2], GenTypes.tooSmall (Mpo.Op 2 𝕜) c = false) (hne : ∃ a ∈ ts, a.coef ≠ 0)
    (hr : ∀ a ∈ ts, star a.coef = a.coef) (hN : 3 ≤ N) :
    ∃ g rs, ts.foldlM (addSpinTerm (spinOps im st)) (Generator.new (uniformIds 2 N)) = .ok g ∧ g.genMatReprMpo = .ok rs ∧ rs.length = N ∧
      CalcDmrg N (opMats rs) (spinOcc st) (fun o => o.1 ≠ o.2) (ts.map SpinTerm.fock).sum ∧
      CalcDmrgMpi N (opMats rs) (spinOcc st) (fun o => o.1 ≠ o.2) (ts.map SpinTerm.fock).sum := by
  obtain ⟨g, l, e1, -, -, e4, -⟩ := spin_ham h im hst ts hp h1 hs hne true
  obtain ⟨rs, f1, f2, f3, f4⟩ := matRep_op (dec := spinOcc st) (by omega) e4.2
  exact ⟨g, rs, e1, f1, f2, calc_dmrg (spinOcc_inj hst) (spinOcc_one st) (spin_herm hp hr) f3 f4 hN, calc_dmrgMpi (spinOcc_inj hst) (spinOcc_one st) (spin_herm hp hr) f3 f4 hN⟩

end

/-! ### Non-vacuity -/

section
open scoped Classical in
/-- A calculation for three sites of a t-J model with complex hoppings, without truncation, from `|↑, ↓, 0⟩`: there is a normalised state with energy at most that of the product state whose densities
`MeasureOneSiteOp` returns. -/
example : ∃ (ws : List (MpoTen 3 ℂ)) (P : VmpsPar (Fin 3) ℂ) (s : Sys (LTen (Fin 3) ℂ) (Env3 ℂ)) (dir : MpsDir (Fin 3) ℂ) (m1 m2 r r' : FMps (Fin 3) ℂ) (Ψ : ChainV (Fin 3) ℂ 3), P.w = mpoW ws ∧
    m1.dump true (fun _ => .gone) = .ok (m2, dir) ∧
    run 3 2 (twoSite (vmpsAlg 3 P) 3 false 4) ⟨Mem.blank 0, ⟨asFiles dir, fun _ => .gone, fun _ => .gone⟩⟩ = .ok s ∧
    (m2.after (vmpsFlags 3 false 4)).loadDir (asDir s.dsk.m) = .ok r ∧
    measureOneSite (qrE (Equiv.refl _)) (svdE (Equiv.refl _)) r [(tjOps (tjSite .u1u1)).nf] = .ok (r', (List.finRange 3).map fun i => [mean (tjOcc (tjSite .u1u1)) Ψ (density i)]) ∧
    ‖inFock (tjOcc (tjSite .u1u1)) Ψ‖ = 1 ∧
    fockEnergy (demoTj.map (HamTerm.fock TjOn.fock star)).sum (inFock (tjOcc (tjSite .u1u1)) Ψ) ≤
      RCLike.re ((demoTj.map (HamTerm.fock TjOn.fock star)).sum (fun i => tjOcc (tjSite .u1u1) (![0, 1, 2] i)) fun i => tjOcc (tjSite .u1u1) (![0, 1, 2] i)) := by
  obtain ⟨g, ws, -, -, -, hw, -⟩ := C92_tJ complex_exact .u1u1 demoTj demoTj_ok.1 demoTj_ok.2.1 demoTj_ok.2.2.1 demoTj_ok.2.2.2.1 demoTj_ok.2.2.2.2 true (by norm_num)
  obtain ⟨tri, ht⟩ := solver_exists
  obtain ⟨m1, m2, dir, files, e, Ψ, -, a0, -, ⟨s, a1, rfl⟩, -, a2, -, -, a4⟩ := hw ⟨mpoW ws, fullR (Equiv.refl _), fullL (Equiv.refl _), tri, 10, 1⟩ rfl (fullR_spec _) (fullL_spec _) ht
    (by show 2 ≤ 10; omega) 4 (by omega) (qrE (Equiv.refl _)) (svdE (Equiv.refl _)) (qrE_spec _) (svdE_spec _) (fun _ k => if k = 0 then (1 : ℤ) else 0) ![0, 1, 2] (fun _ => .gone)
  obtain ⟨r, a2, a3⟩ := a2 _ (.inr rfl)
  obtain ⟨b1, b2, b3⟩ := a4 ⟨fullR_is _, fullL_is _⟩
  obtain ⟨r', hr⟩ := a3 _ _ ((C90_tJ (𝕜 := ℂ) .u1u1 3).1 [.nf])
  exact ⟨ws, _, s, dir, m1, m2, r, r', Ψ, rfl, a0, a1, a2, hr, b1, by rw [b2]; exact b3⟩

open scoped Classical in
/-- The same with `FiniteDMRG`, four sweeps without a signal, and with `Load` into the MPS that was dumped. -/
example : ∃ (rs : List (SparMat (Option (Mpo.Op 3 ℂ)))) (P : DmrgPar (Fin 3) ℂ) (s : CSys (LTen (Fin 3) ℂ) (Option (BOp ℂ))) (dir : MpsDir (Fin 3) ℂ) (m1 m2 r r' : FMps (Fin 3) ℂ) (Ψ : ChainV (Fin 3) ℂ 3), P.m = opMats rs ∧
    dmrg (dmrgAlg P) (bondsOf P) 3 (boundaryG P) (postG P) (fun _ => false) (fun _ => false) 4 quiet ⟨Mem.blank 0, ⟨asFiles dir, fun _ _ => .gone, fun _ _ => .gone⟩⟩ = .ok s ∧
    m1.dump true (fun _ => .gone) = .ok (m2, dir) ∧ m2.loadDir (asDir s.dsk.m) = .ok r ∧
    measureOneSite (qrE (Equiv.refl _)) (svdE (Equiv.refl _)) r [(tjOps (tjSite .u1u1)).nf] = .ok (r', (List.finRange 3).map fun i => [mean (tjOcc (tjSite .u1u1)) Ψ (density i)]) ∧
    ‖inFock (tjOcc (tjSite .u1u1)) Ψ‖ = 1 ∧
    fockEnergy (demoTj.map (HamTerm.fock TjOn.fock star)).sum (inFock (tjOcc (tjSite .u1u1)) Ψ) ≤
      RCLike.re ((demoTj.map (HamTerm.fock TjOn.fock star)).sum (fun i => tjOcc (tjSite .u1u1) (![0, 1, 2] i)) fun i => tjOcc (tjSite .u1u1) (![0, 1, 2] i)) := by
  obtain ⟨g, rs, -, -, -, hw, -⟩ := C92_tJ_dmrg complex_exact .u1u1 demoTj demoTj_ok.1 demoTj_ok.2.1 demoTj_ok.2.2.1 demoTj_ok.2.2.2.1 demoTj_ok.2.2.2.2 (by norm_num)
  obtain ⟨tri, ht⟩ := solver_exists
  obtain ⟨m1, m2, dir, files, e, Ψ, -, a0, -, ⟨s, a1, rfl⟩, -, a2, -, -, a4⟩ := hw ⟨opMats rs, fullR (Equiv.refl _), fullL (Equiv.refl _), qrE (Equiv.refl _), fun _ => finProdFinEquiv, 100, tri, 10, 1⟩
    rfl (fullR_spec _) (fullL_spec _) (qrE_spec _) ht (by show 2 ≤ 10; omega) (fun _ => false) (fun _ => false) 4 4 quiet quiet_ok (by omega) (le_refl _) rfl (fun _ _ => rfl) (.inl rfl)
    (qrE (Equiv.refl _)) (svdE (Equiv.refl _)) (qrE_spec _) (svdE_spec _) (fun _ k => if k = 0 then (1 : ℤ) else 0) ![0, 1, 2] (fun _ => .gone)
  obtain ⟨r, a2, a3⟩ := a2 _ (.inr rfl)
  obtain ⟨b1, b2, b3⟩ := a4 ⟨fullR_is _, fullL_is _⟩
  obtain ⟨r', hr⟩ := a3 _ _ ((C90_tJ (𝕜 := ℂ) .u1u1 3).1 [.nf])
  exact ⟨rs, _, s, dir, m1, m2, r, r', Ψ, rfl, a1, a0, a2, hr, b1, by rw [b2]; exact b3⟩

open scoped Classical in
/-- The parallel `TwoSiteFiniteVMPS` with any number of workers, and `Load` into the master's MPS. -/
example (W : Nat) (hW : 1 ≤ W) (x : Ten (Fin 3) ℂ) : ∃ (ws : List (MpoTen 3 ℂ)) (P : VmpsPar (Fin 3) ℂ) (D : DmrgPar (Fin 3) ℂ) (s : Sys (LTen (Fin 3) ℂ) (Env3 ℂ)) (dir : MpsDir (Fin 3) ℂ)
      (m1 m2 r r' : FMps (Fin 3) ℂ) (Ψ : ChainV (Fin 3) ℂ 3), P.w = mpoW ws ∧ m1.dump true (fun _ => .gone) = .ok (m2, dir) ∧
    Accepted (vmpsEng 3 P (libDemo x)) (svdDemoAct D) W .vmps (vmpsStart 3 P (libDemo x) (svdDemoAct D) W (vmpsG (qrE (Equiv.refl _)) (fun _ => finProdFinEquiv) 100) (fun _ => false)
      (fun _ => false) 4 ⟨Mem.blank 0, ⟨asFiles dir, fun _ => .gone, fun _ => .gone⟩⟩) (.ok s) ∧
    (m2.after (vmpsFlagsMpi 3 (lbOf (fun _ => false) 3) (rbOf (fun _ => false) 3) true 4)).loadDir (asDir s.dsk.m) = .ok r ∧
    measureOneSite (qrE (Equiv.refl _)) (svdE (Equiv.refl _)) r [(tjOps (tjSite .u1u1)).nf] = .ok (r', (List.finRange 3).map fun i => [mean (tjOcc (tjSite .u1u1)) Ψ (density i)]) ∧ Ψ ≠ 0 := by
  obtain ⟨g, ws, -, -, -, -, hw⟩ := C92_tJ complex_exact .u1u1 demoTj demoTj_ok.1 demoTj_ok.2.1 demoTj_ok.2.2.1 demoTj_ok.2.2.2.1 demoTj_ok.2.2.2.2 true (by norm_num)
  obtain ⟨tri, ht, hl⟩ := local_solver_exists
  let D : DmrgPar (Fin 3) ℂ := ⟨opMats [], fullR (Equiv.refl _), fullL (Equiv.refl _), qrE (Equiv.refl _), fun _ => finProdFinEquiv, 100, tri, 10, 1⟩
  let P : VmpsPar (Fin 3) ℂ := ⟨mpoW ws, fullR (Equiv.refl _), fullL (Equiv.refl _), tri, 10, 1⟩
  have hL := libDemo_ok D x hW
  obtain ⟨m1, m2, dir, files, e, Ψ, -, a0, -, ⟨s, a1, rfl⟩, -, a2, -, a4, -⟩ := hw P _ _ (libDemo x) (svdDemoAct D) W (qrE (Equiv.refl _)) rfl (fullR_spec _) (fullL_spec _) (qrE_spec _) ht hl
    (by show 2 ≤ 10; omega) hW ⟨hL.some, hL.env, hL.left, hL.right, hL.sortMul, hL.sortGrow, hL.svd⟩ (fun _ => finProdFinEquiv) 100 (fun _ => false) (fun _ => false) 4 (by omega)
    (qrE (Equiv.refl _)) (svdE (Equiv.refl _)) (qrE_spec _) (svdE_spec _) (fun _ k => if k = 0 then (1 : ℤ) else 0) ![0, 1, 2] (fun _ => .gone)
  obtain ⟨r, a2, a3⟩ := a2 _ (.inr rfl)
  obtain ⟨r', hr⟩ := a3 _ _ ((C90_tJ (𝕜 := ℂ) .u1u1 3).1 [.nf])
  exact ⟨ws, P, D, s, dir, m1, m2, r, r', Ψ, rfl, a0, a1, a2, hr, a4⟩
end

end Verif.Props
