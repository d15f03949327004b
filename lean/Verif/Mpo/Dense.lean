import Verif.Mpo.LabelFacts
import Verif.Mpo.ModelFacts
import Verif.Mps.VmpsSpec
/- The tensors made by `Gen` as a chain of MPO tensors, and their operator. -/
namespace Verif.Mpo
open Finset Verif.Mps

section
variable {K : Type} [CommRing K] {d : Nat}

/-- **Specification**: an MPO tensor of the generator as the sweeps see it: indexed by (outgoing, incoming) state. -/
def MpoTen.ten (t : MpoTen d K) : Ten (Fin d × Fin d) K := ⟨t.l, t.r, fun p a b => t.e a p.2 p.1 b⟩

/-- **Specification**: the tensor of site `j`. -/
def mpoW (ts : List (MpoTen d K)) (j : Nat) : Ten (Fin d × Fin d) K := (ts[j]?).elim ⟨1, 1, fun _ _ _ => 0⟩ MpoTen.ten

variable {Q : Type} {cs : List K} {os : List (Op d K)}

theorem amp_chain (x y : Nat → Fin d) : ∀ {l : List (SiteTen Q)} {ts : List (MpoTen d K)}, List.Forall₂ (Holds cs os) l ts → ∀ (n i r : Nat), DimChain n l → r < n →
    amp (ts.map MpoTen.ten) ((List.range' i l.length).map fun j => (y j, x j)) r 0 =
      chainVal (cOf cs) (fun s => oOf os (x s) (y s)) i (l.map (·.mat)) r
  | _, _, .nil, n, i, r, hd, hr => by
    have hd : n = 1 := hd
    have : r = 0 := by omega
    subst this
    simp [amp, chainVal]
  | s :: l, t :: ts, .cons h hs, n, i, r, hd, hr => by
    obtain ⟨h1, h2⟩ := hd
    rw [List.length_cons, List.range'_succ, List.map_cons, List.map_cons, amp, List.map_cons, chainVal]
    have hl : t.ten.r = s.mat.cols := h.r
    rw [hl]
    refine Finset.sum_congr rfl fun c hc => ?_
    have hc' := Finset.mem_range.1 hc
    rw [amp_chain x y hs s.mat.cols (i + 1) c h2 hc']
    congr 1
    exact h.e r c (by omega) hc' (x i) (y i)

theorem mpo_closed : ∀ {l : List (SiteTen Q)} {ts : List (MpoTen d K)}, List.Forall₂ (Holds cs os) l ts → ∀ (n : Nat), DimChain n l → l ≠ [] →
    (mpoW ts 0).l = n ∧ (mpoW ts (l.length - 1)).r = 1 ∧ ∀ j, j + 1 < l.length → (mpoW ts j).r = (mpoW ts (j + 1)).l
  | _, _, .nil, n, hd, hne => absurd rfl hne
  | [s], _, .cons (b := t) h .nil, n, hd, _ => ⟨h.l.trans hd.1, h.r.trans hd.2, by simp⟩
  | s :: s2 :: l, _, .cons (b := t) h (.cons (b := t2) h2 hs), n, hd, _ => by
    obtain ⟨a, b, c⟩ := mpo_closed (.cons h2 hs) s.mat.cols hd.2 (by simp)
    refine ⟨h.l.trans hd.1, ?_, ?_⟩
    · have : (s :: s2 :: l).length - 1 = ((s2 :: l).length - 1) + 1 := by simp
      rw [this]; exact b
    · intro j hj
      cases j with
      | zero => exact h.r.trans a.symm
      | succ j => exact c j (by simpa using hj)

theorem mpoW_list (ts : List (MpoTen d K)) : (List.range ts.length).map (mpoW ts) = ts.map MpoTen.ten := by
  refine List.ext_getElem (by simp) fun n h1 h2 => ?_
  have : n < ts.length := by simpa using h2
  simp [mpoW, this]

theorem conf_list {σ : Type} (N : Nat) (f : Nat → σ) : (List.ofFn fun i : Fin N => f i) = (List.range' 0 N).map f := by
  refine List.ext_getElem (by simp) fun n h1 h2 => ?_
  simp

/-- What `Gen` established about its matrices. -/
structure GenOK (nc no : Nat) (l : List (SiteTen Q)) : Prop where
  sites : ∀ s ∈ l, SiteOK nc no s
  dims : DimChain 1 l

/-- The tensors exist, are a closed chain and multiply to the operator of the matrices. -/
theorem genOK_tens [DecidableEq K] {l : List (SiteTen Q)} (h : GenOK cs.length os.length l) (hne : l ≠ []) :
    ∃ ts, allTens cs os l = .ok ts ∧ ts.length = l.length ∧ Closed l.length (mpoW ts) ∧
      ∀ x y : Nat → Fin d, amp ((List.range l.length).map (mpoW ts)) (List.ofFn fun i : Fin l.length => (y i, x i)) 0 0 =
        chainVal (cOf cs) (fun s => oOf os (x s) (y s)) 0 (l.map (·.mat)) 0 := by
  obtain ⟨ts, e, hs⟩ := allTens_ok h.sites h.dims
  refine ⟨ts, e, hs.length_eq.symm, mpo_closed hs 1 h.dims hne, fun x y => ?_⟩
  rw [conf_list l.length fun i => (y i, x i), hs.length_eq, mpoW_list, ← hs.length_eq]
  exact amp_chain x y hs 1 0 0 h.dims Nat.one_pos

end

section
variable {Q : Type} [AddCommGroup Q]

theorem consistent_dims {div : Label → Q} {nc no : Nat} : ∀ {l : List (SiteTen Q)} {vb : List (Q × Nat)}, Consistent div vb l →
    (∀ t ∈ l, ∀ x y, x < t.mat.rows → y < t.mat.cols → LabelsIn nc no (t.mat.get x y)) →
    (∀ s ∈ l, SiteOK nc no s) ∧ DimChain (bondDim vb) l
  | [], vb, h, _ => by
    have h : vb = [(0, 1)] := h
    subst h
    exact ⟨by simp, rfl⟩
  | t :: l, vb, ⟨h1, _, _, h4, h5, _, h7⟩, hl => by
    obtain ⟨a, b⟩ := consistent_dims h7 fun s hs => hl s (by simp [hs])
    rw [expand_length] at h4 h5
    refine ⟨?_, by rw [← h4, h1]; rfl, by rw [← h5]; exact b⟩
    intro s hs
    rcases List.mem_cons.1 hs with rfl | hs
    · exact ⟨h4, h5, hl s (by simp)⟩
    · exact a s hs

end

section
variable {C T : Type} [DecidableEq C] [DecidableEq T] [G : GenTypes C T] {Q : Type} [DecidableEq Q] [AddCommGroup Q]

theorem gen_ok {ids : List T} {calls : List (Call C T)} (hv : ∀ c ∈ calls, c.Valid ids.length)
    {g : Generator C T} (hg : history ids calls = .ok g) (hne : effective calls ≠ []) (tdiv : T → Q)
    (hneg : ∀ t, tdiv (GenTypes.tneg C t) = tdiv t) (hid : ∀ t ∈ ids, tdiv t = 0) (hneu : ∀ c ∈ effective calls, (c.ops.map tdiv).sum = 0)
    (compress : Bool) {l : List (SiteTen Q)} (hl : g.gen tdiv 0 compress = .ok l) : GenOK g.coefHub.length g.opHub.length l := by
  obtain ⟨ms, l', -, e2, e3, -⟩ := gen_spec hv hg hne tdiv hneg hid hneu compress
  rw [hl] at e2
  cases e2
  obtain ⟨a, b⟩ := consistent_dims e3 (gen_labels hv hg hne tdiv hneg hid hneu compress hl)
  exact ⟨a, b⟩

end

section
variable {d : Nat} {K : Type} [Field K] [DecidableEq K] [GenTypes K (Op d K)] {Q : Type} [DecidableEq Q] [AddCommGroup Q]

/-- From the matrices to the tensors of `Gen`. -/
theorem genMpo_of_gen (h : ExactTypes d K) {g : Generator K (Op d K)} {tdiv : Op d K → Q} {compress : Bool} {l : List (SiteTen Q)} {N : Nat} (hN : l.length = N) (hN0 : N ≠ 0)
    (hl : g.gen tdiv 0 compress = .ok l) (hok : GenOK g.coefHub.length g.opHub.length l) :
    ∃ ts, g.genMpo tdiv 0 compress = .ok ts ∧ ts.length = N ∧ Closed N (mpoW ts) ∧
      ∀ x y : Nat → Fin d, amp ((List.range N).map (mpoW ts)) (List.ofFn fun i : Fin N => (y i, x i)) 0 0 = mpoVal (opVals h x y) g (l.map (·.mat)) := by
  subst hN
  obtain ⟨ts, e, e1, e2, e3⟩ := genOK_tens hok (by rintro rfl; simp at hN0)
  refine ⟨ts, ?_, e1, e2, fun x y => ?_⟩
  · unfold Generator.genMpo
    rw [hl]; exact e
  · rw [e3, mpoVal_eq]
    congr 1
    funext l
    unfold cOf coefVal opVals
    cases g.coefHub[l]? <;> rfl

end
end Verif.Mpo
