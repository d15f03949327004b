import Verif.Mps.VmpsObj
import Mathlib.Tactic
/-
The flags of an MPS that was handed to a two-site VMPS program: all of them say NONE, so `Load` into it is as good as into a new MPS (part of C92).
-/
namespace Verif.Props
open Verif.Mps

/-- What leaves each flag as it is or sets it to NONE. -/
def FlagsGood (b : List FlagOp) : Prop := ∀ (f : List Cano) (j : Nat), (b.foldl FlagOp.run f)[j]? = f[j]? ∨ (b.foldl FlagOp.run f)[j]? = f[j]?.map fun _ => Cano.none

/-- What sets the flag of site `i` to NONE. -/
def FlagsTouch (b : List FlagOp) (i : Nat) : Prop := ∀ f : List Cano, (b.foldl FlagOp.run f)[i]? = f[i]?.map fun _ => Cano.none

theorem set_none (f : List Cano) (i j : Nat) : (f.set i .none)[j]? = if i = j then f[j]?.map (fun _ => Cano.none) else f[j]? := by
  rw [List.getElem?_set']
  split
  · subst_vars; cases h : f[j]? <;> rfl
  · rfl

theorem good_acc (i : Nat) : FlagsGood [.acc i] := fun f j => by
  show (f.set i .none)[j]? = _ ∨ (f.set i .none)[j]? = _
  rw [set_none]; split
  · exact .inr rfl
  · exact .inl rfl

theorem touch_acc (i : Nat) : FlagsTouch [.acc i] i := fun f => by
  show (f.set i .none)[i]? = _
  rw [set_none, if_pos rfl]

theorem good_nil : FlagsGood [] := fun _ _ => .inl rfl

theorem good_append {a b : List FlagOp} (ha : FlagsGood a) (hb : FlagsGood b) : FlagsGood (a ++ b) := fun f j => by
  rw [List.foldl_append]
  rcases hb (a.foldl FlagOp.run f) j with h | h <;> rcases ha f j with h' | h' <;> rw [h, h']
  · exact .inl rfl
  · exact .inr rfl
  · exact .inr rfl
  · right; rw [Option.map_map]; rfl

theorem touch_left {a b : List FlagOp} {i : Nat} (ha : FlagsTouch a i) (hb : FlagsGood b) : FlagsTouch (a ++ b) i := fun f => by
  rw [List.foldl_append]
  rcases hb (a.foldl FlagOp.run f) i with h | h <;> rw [h, ha f]
  rw [Option.map_map]; rfl

theorem touch_right {a b : List FlagOp} {i : Nat} (ha : FlagsGood a) (hb : FlagsTouch b i) : FlagsTouch (a ++ b) i := fun f => by
  rw [List.foldl_append, hb]
  rcases ha f i with h | h <;> rw [h]
  rw [Option.map_map]; rfl

theorem good_flatMap {α : Type} {g : α → List FlagOp} : ∀ l : List α, (∀ a ∈ l, FlagsGood (g a)) → FlagsGood (l.flatMap g)
  | [], _ => good_nil
  | a :: l, h => by
    rw [List.flatMap_cons]
    exact good_append (h a (by simp)) (good_flatMap l fun b hb => h b (by simp [hb]))

theorem touch_flatMap {α : Type} {g : α → List FlagOp} {i : Nat} : ∀ l : List α, (∀ a ∈ l, FlagsGood (g a)) → (∃ a ∈ l, FlagsTouch (g a) i) → FlagsTouch (l.flatMap g) i
  | [], _, h => by obtain ⟨a, h, -⟩ := h; simp at h
  | a :: l, h, ⟨b, hb, t⟩ => by
    rw [List.flatMap_cons]
    have hl : ∀ b ∈ l, FlagsGood (g b) := fun b hb => h b (by simp [hb])
    rcases List.mem_cons.mp hb with rfl | hb
    · exact touch_left t (good_flatMap l hl)
    · exact touch_right (h a (by simp)) (touch_flatMap l hl ⟨b, hb, t⟩)

theorem good_left (i : Nat) : FlagsGood [.left i, .acc i] := fun f j => by
  show (((f.set i .left).set (i + 1) .none).set i .none)[j]? = _ ∨ (((f.set i .left).set (i + 1) .none).set i .none)[j]? = _
  rw [set_none, set_none, List.getElem?_set']
  by_cases h : i = j
  · subst h; cases h' : f[i]? <;> simp
  · simp only [h, if_false]
    split
    · exact .inr rfl
    · exact .inl rfl

theorem touch_leftTen (i : Nat) : FlagsTouch [.left i, .acc i] i := fun f => by
  show (((f.set i .left).set (i + 1) .none).set i .none)[i]? = _
  rw [set_none, set_none, List.getElem?_set']
  cases h' : f[i]? <;> simp

theorem good_right (i : Nat) : FlagsGood [.right i, .acc i] := fun f j => by
  show (((f.set i .right).set (i - 1) .none).set i .none)[j]? = _ ∨ (((f.set i .right).set (i - 1) .none).set i .none)[j]? = _
  rw [set_none, set_none, List.getElem?_set']
  by_cases h : i = j
  · subst h; by_cases hz : i - 1 = i <;> cases h' : f[i]? <;> simp [hz]
  · simp only [h, if_false]
    split
    · exact .inr rfl
    · exact .inl rfl

theorem touch_rightTen (i : Nat) : FlagsTouch [.right i, .acc i] i := fun f => by
  show (((f.set i .right).set (i - 1) .none).set i .none)[i]? = _
  rw [set_none, set_none, List.getElem?_set']
  by_cases hz : i - 1 = i <;> cases h' : f[i]? <;> simp [hz]

theorem good_upd (u : Disk.Dir × Nat) : FlagsGood (updFlags u) := good_append (good_acc u.2) (good_acc (u.2 + 1))

theorem map_acc {α : Type} (l : List α) (g : α → Nat) : (l.map fun a => FlagOp.acc (g a)) = l.flatMap fun a => [.acc (g a)] := by
  induction l with
  | nil => rfl
  | cons a l ih => simp [ih]

theorem good_accs {α : Type} (l : List α) (g : α → Nat) : FlagsGood (l.map fun a => FlagOp.acc (g a)) := by
  rw [map_acc]; exact good_flatMap l fun a _ => good_acc _

/-- The sweeps touch every site from `lb` to `rb`. -/
theorem touch_upds {lb rb k i : Nat} (hk : k ≠ 0) (h1 : lb ≤ i) (h2 : i ≤ rb) (h3 : lb + 2 ≤ rb) : FlagsTouch ((upds lb rb k).flatMap updFlags) i := by
  have hm : ∀ u ∈ sweepUpds lb rb, u ∈ upds lb rb k := fun u hu => by
    obtain ⟨k, rfl⟩ : ∃ k', k = k' + 1 := ⟨k - 1, by omega⟩
    simp [upds, List.replicate_succ, hu]
  refine touch_flatMap _ (fun u _ => good_upd u) ?_
  by_cases h : i + 1 < rb
  · refine ⟨(.r, i), hm _ ?_, touch_left (touch_acc i) (good_acc _)⟩
    simp only [sweepUpds, List.mem_append, List.mem_map, List.mem_range'_1, Prod.mk.injEq, true_and]
    exact .inl ⟨i, ⟨h1, by omega⟩, rfl⟩
  · by_cases h' : i + 1 = rb
    · refine ⟨(.l, i), hm _ ?_, touch_left (touch_acc i) (good_acc _)⟩
      simp only [sweepUpds, List.mem_append, List.mem_map, List.mem_range'_1, List.mem_reverse, Prod.mk.injEq, true_and]
      exact .inr ⟨i, ⟨by omega, by omega⟩, rfl⟩
    · refine ⟨(.l, i - 1), hm _ ?_, ?_⟩
      · simp only [sweepUpds, List.mem_append, List.mem_map, List.mem_range'_1, List.mem_reverse, Prod.mk.injEq, true_and]
        exact .inr ⟨i - 1, ⟨by omega, by omega⟩, rfl⟩
      · have := touch_right (good_acc (i - 1)) (touch_acc i)
        show FlagsTouch [.acc (i - 1), .acc (i - 1 + 1)] i
        rw [show i - 1 + 1 = i by omega]
        exact this

theorem good_init (N usn : Nat) : FlagsGood (initFlags N usn) := good_accs _ _

/-- Every flag says NONE after the serial program. -/
theorem touch_vmps {N k i : Nat} (hN : 3 ≤ N) (hk : k ≠ 0) (temp : Bool) (hi : i < N) : FlagsTouch (vmpsFlags N temp k) i := by
  refine touch_right ?_ (touch_upds hk (Nat.zero_le _) (by omega) (by omega))
  split
  · exact good_nil
  · exact good_init N 2

/-- Every flag says NONE after the parallel program. -/
theorem touch_vmpsMpi {N lb rb k i : Nat} (hb : lb + 2 ≤ rb) (hk : k ≠ 0) (need : Bool) (hi : i < N) : FlagsTouch (vmpsFlagsMpi N lb rb need k) i := by
  have hneed : FlagsGood (if need then initFlags N (lb + 2) else []) := by
    split
    · exact good_init _ _
    · exact good_nil
  have henv : FlagsGood (boundaryEnvFlags N lb rb) := good_append (good_accs _ _) (good_accs _ id)
  have hus : FlagsGood ((upds lb rb k).flatMap updFlags) := good_flatMap _ fun u _ => good_upd u
  have hL : FlagsGood ((List.range (lb + 1)).flatMap fun i => [.left i, .acc i]) := good_flatMap _ fun i _ => good_left i
  have hR : FlagsGood ((List.range' rb (N - rb)).reverse.flatMap fun i => [.right i, .acc i]) := good_flatMap _ fun i _ => good_right i
  by_cases h1 : i ≤ lb
  · exact touch_left (touch_left (touch_left (touch_left (touch_flatMap _ (fun i _ => good_left i) ⟨i, List.mem_range.mpr (by omega), touch_leftTen i⟩) hR) hneed) henv) hus
  · by_cases h2 : rb ≤ i
    · refine touch_left (touch_left (touch_left (touch_right hL (touch_flatMap _ (fun i _ => good_right i) ⟨i, ?_, touch_rightTen i⟩)) hneed) henv) hus
      rw [List.mem_reverse, List.mem_range'_1]; omega
    · exact touch_right (good_append (good_append (good_append hL hR) hneed) henv) (touch_upds hk (by omega) (by omega) hb)

theorem good_ssUpd (u : Disk.Dir × Nat) : FlagsGood (ssUpdFlags u) := by
  obtain ⟨d, i⟩ := u
  cases d
  · exact good_append (good_acc i) (good_acc (i + 1))
  · exact good_append (good_acc i) (good_acc (i - 1))

/-- Every flag says NONE after `SingleSiteFiniteVMPS`. -/
theorem touch_ss {N k i : Nat} (hN : 2 ≤ N) (hk : k ≠ 0) (temp : Bool) (hi : i < N) : FlagsTouch (ssFlags N temp k) i := by
  refine touch_right ?_ (touch_flatMap _ (fun u _ => good_ssUpd u) ?_)
  · split
    · exact good_nil
    · exact good_init N 1
  · have hm : ∀ u ∈ ssSweep N, u ∈ ssUpds N k := fun u hu => by
      obtain ⟨k, rfl⟩ : ∃ k', k = k' + 1 := ⟨k - 1, by omega⟩
      simp [ssUpds, List.replicate_succ, hu]
    by_cases h : i + 1 < N
    · refine ⟨(.r, i), hm _ ?_, touch_left (touch_acc i) (good_acc _)⟩
      simp only [ssSweep, List.mem_append, List.mem_map, List.mem_range, Prod.mk.injEq, true_and]
      exact .inl ⟨i, by omega, rfl⟩
    · refine ⟨(.l, i), hm _ ?_, touch_left (touch_acc i) (good_acc _)⟩
      simp only [ssSweep, List.mem_append, List.mem_map, List.mem_range'_1, List.mem_reverse, Prod.mk.injEq, true_and]
      exact .inr ⟨i, by omega, rfl⟩

theorem good_tnUpd (expand : Bool) (u : Disk.Dir × Nat) : FlagsGood (tnUpdFlags expand u) := by
  unfold tnUpdFlags
  refine good_append (good_append (good_acc u.2) (good_acc (u.2 + 1))) ?_
  split
  · exact good_acc _
  · exact good_nil

/-- Before the last step of `TwoSiteFiniteVMPSWithNoise` every flag says NONE. -/
theorem touch_tn {N lb rb k i : Nat} (hb : lb + 2 ≤ rb) (hk : k ≠ 0) (need : Bool) (expand : Nat → Bool) (hi : i < N) :
    FlagsTouch (boundaryFlags N lb rb ++ (if need then initFlags N (lb + 2) else []) ++ boundaryEnvFlags N lb rb ++ (upds lb rb k).zipIdx.flatMap (fun p => tnUpdFlags (expand p.2) p.1)) i := by
  have hneed : FlagsGood (if need then initFlags N (lb + 2) else []) := by
    split
    · exact good_init _ _
    · exact good_nil
  have henv : FlagsGood (boundaryEnvFlags N lb rb) := good_append (good_accs _ _) (good_accs _ id)
  have hus : FlagsGood ((upds lb rb k).zipIdx.flatMap (fun p => tnUpdFlags (expand p.2) p.1)) := good_flatMap _ fun p _ => good_tnUpd (expand p.2) p.1
  have hL : FlagsGood ((List.range (lb + 1)).flatMap fun i => [.left i, .acc i]) := good_flatMap _ fun i _ => good_left i
  have hR : FlagsGood ((List.range' rb (N - rb)).reverse.flatMap fun i => [.right i, .acc i]) := good_flatMap _ fun i _ => good_right i
  by_cases h1 : i ≤ lb
  · exact touch_left (touch_left (touch_left (touch_left (touch_flatMap _ (fun i _ => good_left i) ⟨i, List.mem_range.mpr (by omega), touch_leftTen i⟩) hR) hneed) henv) hus
  · by_cases h2 : rb ≤ i
    · refine touch_left (touch_left (touch_left (touch_right hL (touch_flatMap _ (fun i _ => good_right i) ⟨i, ?_, touch_rightTen i⟩)) hneed) henv) hus
      rw [List.mem_reverse, List.mem_range'_1]; omega
    · refine touch_right (good_append (good_append (good_append hL hR) hneed) henv) (touch_flatMap _ (fun p _ => good_tnUpd (expand p.2) p.1) ?_)
      have hm : ∀ u ∈ sweepUpds lb rb, FlagsTouch (tnUpdFlags true u) i ∧ FlagsTouch (tnUpdFlags false u) i → ∃ p ∈ (upds lb rb k).zipIdx, FlagsTouch (tnUpdFlags (expand p.2) p.1) i := fun u hu ht => by
        have hu' : u ∈ upds lb rb k := by
          obtain ⟨k, rfl⟩ : ∃ k', k = k' + 1 := ⟨k - 1, by omega⟩
          simp [upds, List.replicate_succ, hu]
        obtain ⟨n, hn⟩ := List.mem_iff_getElem?.mp hu'
        refine ⟨(u, n), List.mem_zipIdx_iff_getElem?.mpr hn, ?_⟩
        show FlagsTouch (tnUpdFlags (expand n) u) i
        cases expand n
        · exact ht.2
        · exact ht.1
      have hex : ∀ (b : Bool) (d : Disk.Dir), FlagsTouch (tnUpdFlags b (d, i)) i := fun b d => by
        unfold tnUpdFlags
        refine touch_left (touch_left (touch_acc i) (good_acc (i + 1))) ?_
        split
        · exact good_acc _
        · exact good_nil
      by_cases h : i + 1 < rb
      · refine hm (.r, i) ?_ ⟨hex _ _, hex _ _⟩
        simp only [sweepUpds, List.mem_append, List.mem_map, List.mem_range'_1, Prod.mk.injEq, true_and]
        exact .inl ⟨i, ⟨by omega, by omega⟩, rfl⟩
      · refine hm (.l, i) ?_ ⟨hex _ _, hex _ _⟩
        simp only [sweepUpds, List.mem_append, List.mem_map, List.mem_range'_1, List.mem_reverse, Prod.mk.injEq, true_and]
        exact .inr ⟨i, ⟨by omega, by omega⟩, rfl⟩

/-- An emptied MPS all of whose flags were touched is a new one. -/
theorem after_fresh {σ K : Type} {N : Nat} {ops : List FlagOp} {m : FMps σ K} (hs : m.slots.length = N) (hf : m.flags.length = N) (ht : ∀ i, i < N → FlagsTouch ops i) :
    m.after ops = FMps.fresh N := by
  have hlen : ∀ (ops : List FlagOp) (f : List Cano), (ops.foldl FlagOp.run f).length = f.length := by
    intro ops
    induction ops with
    | nil => intro f; rfl
    | cons o ops ih => intro f; rw [List.foldl_cons, ih]; cases o <;> simp [FlagOp.run]
  unfold FMps.after FMps.fresh
  congr 1
  · rw [← hs, List.map_const']
  · apply List.ext_getElem?
    intro i
    by_cases hi : i < N
    · rw [ht i hi, List.getElem?_eq_getElem (by omega)]
      simp [hi]
    · rw [List.getElem?_eq_none (by rw [hlen]; omega), List.getElem?_eq_none (by simp; omega)]

/-- An emptied MPS whose flag at `i` says LEFT, the others NONE. -/
def markedLeft {σ K : Type} (N i : Nat) : FMps σ K := ⟨List.replicate N Option.none, (List.replicate N Cano.none).set i .left, -1⟩

/-- The object after `TwoSiteFiniteVMPSWithNoise`. -/
theorem after_marked {σ K : Type} {N lb rb k : Nat} {m : FMps σ K} (hs : m.slots.length = N) (hf : m.flags.length = N) (hb : lb + 2 ≤ rb) (hk : k ≠ 0) (need : Bool)
    (expand : Nat → Bool) : m.after (tnFlags N lb rb need expand k) = markedLeft N lb := by
  have h := after_fresh (K := K) hs hf (fun i hi => touch_tn (k := k) hb hk need expand hi)
  unfold FMps.after FMps.fresh at h
  obtain ⟨h1, h2, -⟩ := FMps.mk.inj h
  unfold FMps.after markedLeft tnFlags
  rw [List.foldl_append, h1, h2]
  congr 1
  show ((List.replicate N Cano.none).set lb .left).set (lb + 1) .none = _
  apply List.ext_getElem?
  intro j
  rw [set_none]
  split
  · subst_vars
    rw [List.getElem?_set_ne (by omega)]
    simp only [List.getElem?_replicate]
    split <;> rfl
  · rfl

/-- The programs do change flags: those of a centralised MPS. -/
example : (FMps.after (vmpsFlags 4 false 2) ⟨List.replicate 4 Option.none, [.none, .right, .right, .right], 0⟩ : FMps (Fin 2) Int) = FMps.fresh 4 :=
  after_fresh rfl rfl fun _ hi => touch_vmps (by omega) (by omega) false hi

end Verif.Props
