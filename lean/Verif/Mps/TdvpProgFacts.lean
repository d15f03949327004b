import Verif.Mps.TdvpProg
import Verif.Props.TdvpNum
import Verif.Props.TdvpPrepare
/-
Lemmas on the whole of two-site TDVP.
-/
namespace Verif.Mps
open Finset Verif.Disk Verif.Algo Verif.Props

section
variable {T : Type}

theorem complete_all {f : Nat → File T} {ψ : Nat → T} : ∀ {n : Nat}, (∀ j, j < n → f j = .whole (ψ j)) → complete f n = (List.range n).map ψ
  | 0, _ => rfl
  | n + 1, h => by
    have ih := complete_all (n := n) fun j hj => h j (by omega)
    simp only [complete, h n (by omega)]
    rw [ih, if_pos (by simp), List.range_succ, List.map_append]
    rfl

/-- The tensors of a list as a function. -/
def ofList (d : List T) (ψ : Nat → T) : Nat → T := fun j => (d[j]?).getD (ψ j)

theorem ofList_at {d : List T} {ψ : Nat → T} {j : Nat} {u : T} (h : d[j]? = some u) : ofList d ψ j = u := by
  unfold ofList; rw [h]; rfl

theorem ofList_map {d : List T} {ψ : Nat → T} : (List.range d.length).map (ofList d ψ) = d := by
  apply List.ext_getElem?
  intro j
  by_cases h : j < d.length
  · rw [List.getElem?_map, List.getElem?_range h, List.getElem?_eq_getElem h]
    simp only [Option.map_some]
    rw [ofList_at (List.getElem?_eq_getElem h)]
  · rw [List.getElem?_eq_none (by simp; omega), List.getElem?_eq_none (by omega)]

theorem rewrite_whole {d : List T} {ψ : Nat → T} {f : Nat → File T} {j : Nat} (h : j < d.length) : rewrite d f j = .whole (ofList d ψ j) := by
  unfold rewrite
  rw [List.getElem?_eq_getElem h, ofList_at (List.getElem?_eq_getElem h)]

theorem rewrite_out {d : List T} {f : Nat → File T} {j : Nat} (h : d.length ≤ j) : rewrite d f j = f j := by
  unfold rewrite
  rw [List.getElem?_eq_none h]

end

section
variable {σ : Type}

theorem ofList_closed {N : Nat} (hN : 0 < N) {d : List (Ten σ ℂ)} {ψ : Nat → Ten σ ℂ} (hl : Linked d) (hlen : d.length = N) (h1 : headL d = 1) (h2 : lastR d = 1) :
    Closed N (ofList d ψ) := by
  subst hlen
  have g : ∀ j (h : j < d.length), ofList d ψ j = d[j] := fun j h => ofList_at (List.getElem?_eq_getElem h)
  refine ⟨?_, ?_, fun j hj => ?_⟩
  · rw [g 0 (by omega)]
    cases d with
    | nil => simp at hN
    | cons a d => exact h1
  · rw [g (d.length - 1) (by omega)]
    refine Eq.trans ?_ h2
    unfold lastR
    rw [List.getLast?_eq_getElem?, List.getElem?_eq_getElem (by omega)]
    rfl
  · rw [g j (by omega), g (j + 1) (by omega)]
    exact (List.isChain_iff_getElem.mp hl) j (by omega)

theorem closed_lastR {N : Nat} (hN : 0 < N) {t : Nat → Ten σ ℂ} (h : Closed N t) : headL ((List.range N).map t) = 1 ∧ lastR ((List.range N).map t) = 1 := by
  obtain ⟨n, rfl⟩ : ∃ n, N = n + 1 := ⟨N - 1, by omega⟩
  refine ⟨?_, ?_⟩
  · rw [List.range_succ_eq_map, List.map_cons]; exact h.1
  · unfold lastR
    rw [List.range_succ, List.map_append]
    simpa using h.2.1

theorem copy_ok {N : Nat} {ts : List (Ten σ ℂ)} (hlen : ts.length = N) : ∀ (n : Nat) {acc : List (Ten σ ℂ)} {m : FMps σ ℂ} {i : Nat}, i + n = N →
    acc = ts.take i → Slots m N (fun _ => Option.none) →
    ∃ m', (List.range' i n).foldlM (copyStep ts) (acc, m) = .ok (ts, m') ∧ Slots m' N (fun _ => Option.none)
  | 0, acc, m, i, hi, ha, hs => ⟨m, by rw [ha, List.take_of_length_le (by omega)]; rfl, hs⟩
  | n + 1, acc, m, i, hi, ha, hs => by
    have e : ts[i]? = some ts[i] := List.getElem?_eq_getElem (by omega)
    obtain ⟨m1, a1, s1⟩ := hs.loadTen (i := i) (by omega) e
    have r1 := s1.read (i := i) (by omega) (t := ts[i]) (by simp [upd])
    obtain ⟨m2, a2, s2⟩ := s1.dealloc (i := i) (by omega)
    obtain ⟨m', k1, k2⟩ := copy_ok hlen n (acc := acc ++ [ts[i]]) (m := m2) (i := i + 1) (by omega) (by rw [ha, List.take_append_getElem])
      (s2.congr fun j _ => by by_cases h : j = i <;> simp [upd, h])
    refine ⟨m', ?_, k2⟩
    rw [List.range'_succ, List.foldlM_cons]
    have : copyStep ts (acc, m) i = .ok (acc ++ [ts[i]], m2) := by
      unfold copyStep
      simp only [a1, bind, Except.bind, r1, a2]
      rfl
    rw [this]
    exact k1

end
end Verif.Mps
