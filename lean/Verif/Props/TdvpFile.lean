import Verif.Mps.TdvpFile
import Verif.Props.TdvpProgram
import Verif.Props.MpiTdvpNum
import Verif.Props.Dump
/-
C86 for the file of `TwoSiteFiniteTDVP`.
-/
namespace Verif.Props
open Finset Verif.Mps Verif.Disk Verif.Algo Verif.Mpi Verif.Mps.Dump

section
variable {σ R : Type} [Fintype σ] [DecidableEq σ] {N : Nat} {P : TdvpPar σ} {qr svd : Ten σ ℂ → Ten σ ℂ × Mat ℂ}

/-- **Specification**: the records of a table of correlations as JSON: for each time `k tau` and each site `i` the sites `[site0, i]`, the times `[0, k tau]` and the two parts of `f k i`. The numbers
have 12 significant digits, the times of the first record only 6. -/
def corrJson (val : Nat → R → ℚ) (num : Rat → R) (parts : ℂ → R × R) (N step site0 : Nat) (tau : Rat) (f : Nat → Nat → ℂ) : Json :=
  .arr ((List.range (N * (step + 1))).map fun n => .arr [sitesJson [site0, n % N],
    .arr [.num (val (if n = 0 then 6 else 12) (num 0)), .num (val (if n = 0 then 6 else 12) (num (((n / N : Nat) : Rat) * tau)))], complexJson val (parts (f (n / N) (n % N)))])

theorem file_of_table {fmt : Nat → R → List Char} {val : Nat → R → ℚ} (num : Rat → R) (parts : ℂ → R × R)
    (finite : ∀ x, Prints fmt val 12 (parts x).1 ∧ Prints fmt val 12 (parts x).2) (times : ∀ q, Prints fmt val 6 (num q) ∧ Prints fmt val 12 (num q))
    {step site0 : Nat} {tau : Rat} {f : Nat → Nat → ℂ} {res : List (Option (Mps.Cell ℂ))} (hN : 0 < N) (hlen : res.length = N * (step + 1))
    (hres : ∀ k i, k ≤ step → i < N → res[k * N + i]? = some (some ⟨(site0, i), (0, k * tau), f k i⟩)) :
    ∃ text, dumpResT fmt (fun o x => dumpAvgC fmt o (parts x)) (res.map (cellRow num 0)) = some text ∧ readJson text = some (corrJson val num parts N step site0 tau f) := by
  have hres : res.map (cellRow num 0) = (List.range (N * (step + 1))).map fun n =>
      ([site0, n % N], [num 0, num (((n / N : Nat) : Rat) * tau)], f (n / N) (n % N)) := by
    apply List.ext_getElem?
    intro n
    rw [List.getElem?_map, List.getElem?_map]
    by_cases hn : n < N * (step + 1)
    · rw [List.getElem?_range hn]
      have := hres (n / N) (n % N) (by have := Nat.div_lt_of_lt_mul hn; omega) (Nat.mod_lt _ (by omega))
      rw [Nat.mul_comm, Nat.div_add_mod] at this
      rw [this]
      rfl
    · rw [List.getElem?_eq_none (by omega), List.getElem?_eq_none (by simpa using hn)]
      rfl
  obtain ⟨text, g1, g2⟩ := C86_dynamic (fmt := fmt) (val := val) (avg := fun o x => dumpAvgC fmt o (parts x)) (J := fun x => complexJson val (parts x)) (res.map (cellRow num 0))
    (by rw [hres]; intro r hr; obtain ⟨x, -, rfl⟩ := List.mem_map.1 hr; simp)
    (by
      intro r _
      obtain ⟨x, h1, h2⟩ := avgWriter_complex (fmt := fmt) (val := val) (finite r.2.2).1 (finite r.2.2).2
      exact ⟨x, h1, h2⟩)
    (by
      rw [hres]; intro r hr; obtain ⟨x, -, rfl⟩ := List.mem_map.1 hr
      intro t ht
      simp only [List.mem_cons, List.not_mem_nil, or_false] at ht
      rcases ht with rfl | rfl <;> exact times _)
  refine ⟨text, g1, ?_⟩
  rw [g2, hres]
  unfold corrJson
  congr 2
  apply List.ext_getElem?
  intro n
  simp only [List.getElem?_map, List.getElem?_zipIdx]
  by_cases hn : n < N * (step + 1)
  · rw [List.getElem?_range hn]; simp
  · rw [List.getElem?_eq_none (l := List.range _) (by simpa using hn)]; rfl

/-- C86: the file that `TwoSiteFiniteTDVP` writes. Under the conditions of C81, it is read as JSON as the records of all times and sites; the value of time `k tau` and site `i` is
`exp(i e0 k tau) ⟨φ|O1_i|Φ_k⟩`, where the `Φ_k` are the states of C81. -/
theorem C86_tdvp_file (hQ : QRSpec qr) (hP : TdvpOK N P) (hm : P.mpi = false) (hN : 3 ≤ N) {o : TdvpObs σ} (hc : o.corr = true) (h0 : o.site0 < N) {s : TdvpSys σ}
    (hs : Slots s.m N (fun _ => Option.none)) {ψ φ : Nat → Ten σ ℂ} (hd : OnDisk N ψ s.dsk) (hψ : Closed N ψ) (hr : ∀ j, o.site0 < j → j < N → RightIso (ψ j))
    (hφ : Closed N φ) (hi : (s.init = Option.none ∧ φ = ψ) ∨ s.init = some ((List.range N).map φ)) (hz : applyAt N o.op0 o.inst0 o.site0 (stateV N ψ) ≠ 0)
    {fmt : Nat → R → List Char} {val : Nat → R → ℚ} (num : Rat → R) (parts : ℂ → R × R)
    (finite : ∀ x, Prints fmt val 12 (parts x).1 ∧ Prints fmt val 12 (parts x).2) (times : ∀ q, Prints fmt val 6 (num q) ∧ Prints fmt val 12 (num q)) :
    ∃ s' res text t, tdvpProgram qr svd P o s = .ok (s', res) ∧ Mps.Canon N 0 t ∧
      dumpResT fmt (fun o x => dumpAvgC fmt o (parts x)) (res.map (cellRow num 0)) = some text ∧
      (∀ Φ : Nat → ChainV σ ℂ N, Φ = (fun k => stateV N (Mps.evolve N P t (tdvpActs N o.tau k))) →
        readJson text = some (corrJson val num parts N o.step o.site0 o.tau fun k i =>
          Complex.exp (Complex.I * o.e0 * ((k * o.tau : Rat) : ℂ)) * inner ℂ (stateV N φ) (applyAt N o.op1 o.inst1 i (Φ k))) ∧
        Φ 0 = applyAt N o.op0 o.inst0 o.site0 (stateV N ψ)) := by
  obtain ⟨s', res, t, e1, e2, ec, e3, -⟩ := C81_tdvp_program (svd := svd) hQ hP hm hN hc h0 hs hd hψ hr hφ hi hz
  obtain ⟨f1, f2, f3⟩ := e3 _ rfl
  obtain ⟨text, g1, g2⟩ := file_of_table (fmt := fmt) (val := val) num parts finite times (by omega) e2 f1
  exact ⟨s', res, text, t, e1, ec, g1, by rintro Φ rfl; exact ⟨g2, f2⟩⟩

/-- C86: the file that the parallel `TwoSiteFiniteTDVP` writes, in every execution (C83). -/
theorem C86_tdvp_parallel_file {SL VL : Type} {L : MpiLib σ ℂ SL} {lact : Nat → SL → Act SL VL} {W : Nat} (hW : 1 ≤ W) (hL : L.OKT P lact W) (hE : EigLocal P.eig) (hm : P.mpi = true)
    (hQ : QRSpec qr) (hP : TdvpOK N P) (hN : 3 ≤ N) {o : TdvpObs σ} (h0 : o.site0 < N) {x : TdvpD σ} (hs : Slots x.sys.m N (fun _ => Option.none)) {ψ φ : Nat → Ten σ ℂ}
    (hd : OnDisk N ψ x.sys.dsk) (hψ : Closed N ψ) (hr : ∀ j, o.site0 < j → j < N → RightIso (ψ j)) (hφ : Closed N φ)
    (hi : (x.sys.init = Option.none ∧ φ = ψ) ∨ x.sys.init = some ((List.range N).map φ)) (hz : applyAt N o.op0 o.inst0 o.site0 (stateV N ψ) ≠ 0)
    {fmt : Nat → R → List Char} {val : Nat → R → ℚ} (num : Rat → R) (parts : ℂ → R × R)
    (finite : ∀ x, Prints fmt val 12 (parts x).1 ∧ Prints fmt val 12 (parts x).2) (times : ∀ q, Prints fmt val 6 (num q) ∧ Prints fmt val 12 (num q)) :
    ∃ d text t, Accepted (tdvpEng N P L) lact W .tdvp (tdvpStart N P L lact W qr svd o x) (.ok d) ∧ Mps.Canon N 0 t ∧
      dumpResT fmt (fun o x => dumpAvgC fmt o (parts x)) (d.res.map (cellRow num 0)) = some text ∧
      (∀ Φ : Nat → ChainV σ ℂ N, Φ = (fun k => (‖applyAt N o.op0 o.inst0 o.site0 (stateV N ψ)‖ : ℂ) • stateV N (evolveP N t (tdvpPlan N P o.tau k))) →
        readJson text = some (corrJson val num parts N o.step o.site0 o.tau fun k i =>
          Complex.exp (Complex.I * o.e0 * ((k * o.tau : Rat) : ℂ)) * inner ℂ (stateV N φ) (applyAt N o.op1 o.inst1 i (Φ k))) ∧
        Φ 0 = applyAt N o.op0 o.inst0 o.site0 (stateV N ψ)) := by
  obtain ⟨d, t, e1, e2, ec, e3, -⟩ := C83_tdvp_parallel (svd := svd) hW hL hE hm hQ hP hN h0 hs hd hψ hr hφ hi hz
  obtain ⟨f1, f2, f3⟩ := e3 _ rfl
  obtain ⟨text, g1, g2⟩ := file_of_table (fmt := fmt) (val := val) num parts finite times (by omega) e2 f1
  exact ⟨d, text, t, e1, ec, g1, by rintro Φ rfl; exact ⟨g2, f2⟩⟩

end

/-- The Ising chain and the state of the example of C81 write such a file, with a stand-in for the number printing that is exact on natural numbers. -/
example (N n : Nat) (hN : 3 ≤ N) (tau : Rat) : ∃ eig s' res text, tdvpProgram (qrE (K := ℂ) upEnum) (fun t => (t, fun _ _ => 0)) (exTdvpFull N eig false) (exObs n tau)
      ⟨⟨fun j => .whole (exUpC j), fun _ => .gone, fun _ => .gone⟩, Option.none, fun _ => Option.none, FMps.fresh N⟩ = .ok (s', res) ∧
    dumpResT fmtNat (fun o _ => dumpAvgC fmtNat o (0, 0)) (res.map (cellRow (fun q => q.num.toNat) 0)) = some text := by
  obtain ⟨eig, he⟩ := eig_exists
  obtain ⟨s', res, text, t, h1, -, h2, -⟩ := C86_tdvp_file (svd := fun t => (t, fun _ _ => 0)) (qrE_spec (K := ℂ) upEnum) (exTdvpFull_ok (by omega) he false) rfl hN (o := exObs n tau) rfl
    (show 1 < N by omega) (s := ⟨⟨fun j => .whole (exUpC j), fun _ => .gone, fun _ => .gone⟩, Option.none, fun _ => Option.none, FMps.fresh N⟩) (ψ := exUpC) (φ := exUpC) (by
      have := slots_of_empty (m := (FMps.fresh N : FMps Bool ℂ)) (by simp [FMps.isEmpty, FMps.fresh])
      rwa [show (FMps.fresh N : FMps Bool ℂ).size = N by simp [FMps.size, FMps.fresh]] at this) (fun _ _ => rfl) (exUpC_canon N).1
    (fun j hj hj' => (exUpC_canon N).2.2 j (by omega) hj') (exUpC_canon N).1 (Or.inl ⟨rfl, rfl⟩) (exObs_ne hN n tau)
    (fmt := fmtNat) (val := fun _ n => (n : ℚ)) (fun q => q.num.toNat) (fun _ => (0, 0)) (fun _ => ⟨jsonNumber_nat 0, jsonNumber_nat 0⟩)
    (fun q => ⟨jsonNumber_nat _, jsonNumber_nat _⟩)
  exact ⟨eig, s', res, text, h1, h2⟩

end Verif.Props
