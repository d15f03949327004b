import Verif.Props.ModelSpec
import Verif.Props.FockAlg
import Verif.Mpo.ModelFacts
import Mathlib.Tactic.FinCases
import Mathlib.Tactic.NormNum
/-
The operator tensors of the predefined sites as one-site fermion matrices.
-/
namespace Verif.Fock
open Finset Matrix Verif.Mpo
variable {K : Type} [Field K] {N d : Nat}

/-- The tensor `o` has the matrix elements of `L` between the occupations its labels stand for. -/
def Rep (dec : Fin d → Occ) (o : Op d K) (L : Matrix Occ Occ K) : Prop := ∀ c r, o c r = L (dec r) (dec c)

theorem prod_rep {dec : Fin d → Occ} (F : Nat → Op d K) (L : Fin N → Matrix Occ Occ K) (h : ∀ s : Fin N, Rep dec (F s) (L s)) (x y : Nat → Fin d) :
    ∏ s ∈ range N, F s (x s) (y s) = strOp L (fun s => dec (y s)) (fun s => dec (x s)) := by
  rw [Finset.prod_range]
  exact Finset.prod_congr rfl fun s _ => h s _ _

/-- Strings of matrices. -/
def two (i j : Fin N) (a f b : Matrix Occ Occ K) (s : Fin N) : Matrix Occ Occ K :=
  if s = i then a else if s = j then b else if i < s ∧ s < j then f else 1

def siteL (i : Fin N) (a : Matrix Occ Occ K) (s : Fin N) : Matrix Occ Occ K := if s = i then a else 1

theorem rep_strF {dec : Fin d → Occ} {i j : Fin N} {a f b : Op d K} {A F B : Matrix Occ Occ K} (hid : Rep dec (idOp : Op d K) 1)
    (ha : Rep dec a A) (hf : Rep dec f F) (hb : Rep dec b B) (s : Fin N) : Rep dec (strF i j a f b s) (two i j A F B s) := by
  unfold strF two
  by_cases h1 : s = i
  · rw [if_pos (by rw [h1]), if_pos h1]; exact ha
  · rw [if_neg (fun h => h1 (Fin.ext h)), if_neg h1]
    by_cases h2 : s = j
    · rw [if_pos (by rw [h2]), if_pos h2]; exact hb
    · rw [if_neg (fun h => h2 (Fin.ext h)), if_neg h2]
      by_cases h3 : i < s ∧ s < j
      · rw [if_pos (show i.1 < s.1 ∧ s.1 < j.1 from h3), if_pos h3]; exact hf
      · rw [if_neg (show ¬ (i.1 < s.1 ∧ s.1 < j.1) from h3), if_neg h3]; exact hid

theorem str_lr {i j : Fin N} (h : i < j) (x y : Matrix Occ Occ K) : strOp (strAt i x) * strOp (strAt j y) = strOp (two i j (x * par) par y) := by
  rw [strOp_mul]
  congr 1
  funext s
  unfold strAt two
  rcases lt_trichotomy s i with h1 | h1 | h1
  · have a1 := ne_of_lt h1; have a2 := ne_of_lt (h1.trans h); have a3 := not_lt.2 (le_of_lt h1)
    simp [h1, h1.trans h, a1, a2, a3, par_par]
  · subst h1; simp [h]
  · have a1 := ne_of_gt h1; have a3 := not_lt.2 (le_of_lt h1)
    rcases lt_trichotomy s j with h2 | h2 | h2
    · have a2 := ne_of_lt h2
      simp [h1, h2, a1, a2, a3]
    · subst h2; simp [a1, a3]
    · have a2 := ne_of_gt h2; have a4 := not_lt.2 (le_of_lt h2)
      simp [a1, a2, a3, a4]

theorem str_rl {i j : Fin N} (h : i < j) (x y : Matrix Occ Occ K) : strOp (strAt j y) * strOp (strAt i x) = strOp (two i j (par * x) par y) := by
  rw [strOp_mul]
  congr 1
  funext s
  unfold strAt two
  rcases lt_trichotomy s i with h1 | h1 | h1
  · have a1 := ne_of_lt h1; have a2 := ne_of_lt (h1.trans h); have a3 := not_lt.2 (le_of_lt h1)
    simp [h1, h1.trans h, a1, a2, a3, par_par]
  · subst h1; simp [h]
  · have a1 := ne_of_gt h1; have a3 := not_lt.2 (le_of_lt h1)
    rcases lt_trichotomy s j with h2 | h2 | h2
    · have a2 := ne_of_lt h2
      simp [h1, h2, a1, a2, a3]
    · subst h2; simp [a1, a3]
    · have a2 := ne_of_gt h2; have a4 := not_lt.2 (le_of_lt h2)
      simp [a1, a2, a3, a4]

theorem str_same (i : Fin N) (x y : Matrix Occ Occ K) : strOp (strAt i x) * strOp (strAt i y) = strOp (siteL i (x * y)) := by
  rw [strOp_mul]
  congr 1
  funext s
  unfold strAt siteL
  rcases lt_trichotomy s i with h1 | h1 | h1
  · simp [h1, ne_of_lt h1, par_par]
  · subst h1; simp
  · simp [not_lt.2 (le_of_lt h1), ne_of_gt h1]

theorem siteL_mul (i : Fin N) (x y : Matrix Occ Occ K) : strOp (siteL i x) * strOp (siteL i y) = strOp (siteL i (x * y)) := by
  rw [strOp_mul]; congr 1; funext s; unfold siteL; split <;> simp

theorem siteL_add (i : Fin N) (x y : Matrix Occ Occ K) : strOp (siteL i x) + strOp (siteL i y) = strOp (siteL i (x + y)) :=
  strOp_add _ _ _ i (by simp [siteL]) (fun k hk => by simp [siteL, hk]) (fun k hk => by simp [siteL, hk])

theorem siteL_smul (i : Fin N) (c : K) (x : Matrix Occ Occ K) : c • strOp (siteL i x) = strOp (siteL i (c • x)) :=
  (strOp_smul _ _ i c (by simp [siteL]) (fun k hk => by simp [siteL, hk])).symm

theorem siteL_sub (i : Fin N) (x y : Matrix Occ Occ K) : strOp (siteL i x) - strOp (siteL i y) = strOp (siteL i (x - y)) := by
  rw [sub_eq_add_neg, ← neg_one_smul K (strOp (siteL i y)), siteL_smul, siteL_add, neg_one_smul, ← sub_eq_add_neg]

theorem siteL_one (i : Fin N) : strOp (siteL i (1 : Matrix Occ Occ K)) = 1 := by
  rw [← strOp_one]; congr 1; funext s; unfold siteL; split <;> rfl

theorem siteL_two {i j : Fin N} (h : i ≠ j) (x y : Matrix Occ Occ K) : strOp (siteL i x) * strOp (siteL j y) = strOp (two i j x 1 y) := by
  rw [strOp_mul]; congr 1; funext s; unfold siteL two
  by_cases h1 : s = i
  · subst h1; simp [h]
  · by_cases h2 : s = j
    · subst h2; simp [h1]
    · simp [h1, h2]

theorem siteL_comm {i j : Fin N} (h : i ≠ j) (x y : Matrix Occ Occ K) : strOp (siteL i x) * strOp (siteL j y) = strOp (siteL j y) * strOp (siteL i x) := by
  rw [strOp_mul, strOp_mul]; congr 1; funext s; unfold siteL
  by_cases h1 : s = i
  · subst h1; simp [h]
  · by_cases h2 : s = j
    · subst h2; simp [h1]
    · simp [h1, h2]

/-- Products of two fermion operators of the same site. -/
theorem pair_cc (i : Fin N) (σ τ : Spin) : (cre (i, σ) * ann (i, τ) : Matrix (Conf N) (Conf N) K) = strOp (siteL i ((loc σ).transpose * loc τ)) := by
  rw [cre_strAt, ann_strAt, str_same]

theorem pair_create (i : Fin N) (σ τ : Spin) : (cre (i, σ) * cre (i, τ) : Matrix (Conf N) (Conf N) K) =
    strOp (siteL i ((loc σ).transpose * (loc τ).transpose)) := by
  rw [cre_strAt, cre_strAt, str_same]

theorem pair_annihilate (i : Fin N) (σ τ : Spin) : (ann (i, σ) * ann (i, τ) : Matrix (Conf N) (Conf N) K) = strOp (siteL i (loc σ * loc τ)) := by
  rw [ann_strAt, ann_strAt, str_same]

theorem two_left {i j : Fin N} (c : K) (A F B : Matrix Occ Occ K) : strOp (two i j (c • A) F B) = c • strOp (two i j A F B) :=
  strOp_smul _ _ i c (by simp [two]) (fun k hk => by simp [two, hk])

theorem two_right {i j : Fin N} (h : i ≠ j) (c : K) (A F B : Matrix Occ Occ K) : strOp (two i j A F (c • B)) = c • strOp (two i j A F B) :=
  strOp_smul _ _ j c (by simp [two, Ne.symm h]) (fun k hk => by simp [two, hk])

/-! ### The tensors -/

/-! One-site matrices in closed form. -/

macro "loc_eq" : tactic => `(tactic| (
  ext ⟨a, b⟩ ⟨c, d⟩
  cases a <;> cases b <;> cases c <;> cases d <;>
    simp [par, loc_up, loc_dn, Matrix.mul_apply, Matrix.transpose_apply, Matrix.one_apply, Matrix.smul_apply, Matrix.sub_apply, Matrix.add_apply,
      Fintype.sum_prod_type]))

theorem l_one : (1 : Matrix Occ Occ K) = Matrix.of fun a b => if a = b then 1 else 0 := by loc_eq
theorem l_par : (par : Matrix Occ Occ K) = Matrix.of fun a b => if a = b then (if b.1 = b.2 then 1 else -1) else 0 := by loc_eq
theorem l_ucp : ((loc .up).transpose * par : Matrix Occ Occ K) = Matrix.of fun a b => if a.1 = true ∧ b = (false, a.2) then (if b.2 = true then -1 else 1) else 0 := by
  loc_eq
theorem l_pua : (par * loc .up : Matrix Occ Occ K) = Matrix.of fun a b => if b.1 = true ∧ a = (false, b.2) then (if b.2 = true then -1 else 1) else 0 := by loc_eq
theorem l_mpua : ((-1 : K) • (par * loc .up) : Matrix Occ Occ K) = Matrix.of fun a b => if b.1 = true ∧ a = (false, b.2) then (if b.2 = true then 1 else -1) else 0 := by
  loc_eq
theorem l_dcp : ((loc .dn).transpose * par : Matrix Occ Occ K) = Matrix.of fun a b => if a.2 = true ∧ b = (a.1, false) then 1 else 0 := by loc_eq
theorem l_pda : (par * loc .dn : Matrix Occ Occ K) = Matrix.of fun a b => if b.2 = true ∧ a = (b.1, false) then 1 else 0 := by loc_eq
theorem l_mdc : ((-1 : K) • (loc .dn).transpose : Matrix Occ Occ K) = Matrix.of fun a b => if a.2 = true ∧ b = (a.1, false) then (if a.1 = true then 1 else -1) else 0 := by
  loc_eq
theorem l_sp : ((loc .up).transpose * loc .dn : Matrix Occ Occ K) = Matrix.of fun a b => if b = (false, true) ∧ a = (true, false) then 1 else 0 := by loc_eq
theorem l_sm : ((loc .dn).transpose * loc .up : Matrix Occ Occ K) = Matrix.of fun a b => if b = (true, false) ∧ a = (false, true) then 1 else 0 := by loc_eq
theorem l_nup : ((loc .up).transpose * loc .up : Matrix Occ Occ K) = Matrix.of fun a b => if a = b ∧ b.1 = true then 1 else 0 := by loc_eq
theorem l_ndn : ((loc .dn).transpose * loc .dn : Matrix Occ Occ K) = Matrix.of fun a b => if a = b ∧ b.2 = true then 1 else 0 := by loc_eq
theorem l_cc : ((loc .up).transpose * (loc .dn).transpose : Matrix Occ Occ K) = Matrix.of fun a b => if b = (false, false) ∧ a = (true, true) then 1 else 0 := by loc_eq
theorem l_aa : (loc .dn * loc .up : Matrix Occ Occ K) = Matrix.of fun a b => if b = (true, true) ∧ a = (false, false) then 1 else 0 := by loc_eq
theorem l_sz : ((2⁻¹ : K) • ((loc .up).transpose * loc .up - (loc .dn).transpose * loc .dn) : Matrix Occ Occ K) =
    Matrix.of fun a b => if a = b then (if b = (true, false) then 2⁻¹ else if b = (false, true) then -2⁻¹ else 0) else 0 := by rw [l_nup, l_ndn]; loc_eq
theorem l_sx : ((2⁻¹ : K) • ((loc .up).transpose * loc .dn + (loc .dn).transpose * loc .up) : Matrix Occ Occ K) =
    Matrix.of fun a b => if (b = (true, false) ∧ a = (false, true)) ∨ (b = (false, true) ∧ a = (true, false)) then 2⁻¹ else 0 := by rw [l_sp, l_sm]; loc_eq
theorem l_sy (im : K) : ((-(2⁻¹ * im) : K) • ((loc .up).transpose * loc .dn - (loc .dn).transpose * loc .up) : Matrix Occ Occ K) =
    Matrix.of fun a b => if b = (true, false) ∧ a = (false, true) then 2⁻¹ * im else if b = (false, true) ∧ a = (true, false) then -(2⁻¹ * im) else 0 := by
  rw [l_sp, l_sm]; loc_eq
theorem l_nn : (((loc .up).transpose * loc .up) * ((loc .dn).transpose * loc .dn) : Matrix Occ Occ K) =
    Matrix.of fun a b => if a = b ∧ b = (true, true) then 1 else 0 := by rw [l_nup, l_ndn]; loc_eq
theorem l_nf : ((loc .up).transpose * loc .up + (loc .dn).transpose * loc .dn : Matrix Occ Occ K) =
    Matrix.of fun a b => if a = b then (if b = (true, true) then 2 else if b = (false, false) then 0 else 1) else 0 := by
  rw [l_nup, l_ndn]
  ext ⟨a, b⟩ ⟨c, d⟩
  cases a <;> cases b <;> cases c <;> cases d <;> simp [Matrix.add_apply, one_add_one_eq_two]
theorem l_nfsq : (((loc .up).transpose * loc .up + (loc .dn).transpose * loc .dn) * ((loc .up).transpose * loc .up + (loc .dn).transpose * loc .dn) :
    Matrix Occ Occ K) = Matrix.of fun a b => if a = b then (if b = (true, true) then 4 else if b = (false, false) then 0 else 1) else 0 := by
  rw [l_nf]
  ext ⟨a, b⟩ ⟨c, d⟩
  cases a <;> cases b <;> cases c <;> cases d <;> simp [Matrix.mul_apply, Fintype.sum_prod_type]
  norm_num
theorem l_parity : ((1 - (2 : K) • ((loc .up).transpose * loc .up)) * (1 - (2 : K) • ((loc .dn).transpose * loc .dn)) : Matrix Occ Occ K) = par := by
  rw [l_nup, l_ndn]
  ext ⟨a, b⟩ ⟨c, d⟩
  cases a <;> cases b <;> cases c <;> cases d <;>
    simp [par, Matrix.mul_apply, Fintype.sum_prod_type, Matrix.sub_apply, Matrix.smul_apply, Matrix.one_apply] <;> norm_num

macro "op_rep" : tactic => `(tactic| (
  intro c r
  rename_i sym
  cases sym <;> fin_cases c <;> fin_cases r <;> rfl))

section
variable (im : K)

theorem hub_id (sym : Sym) : Rep (hubOcc (hubSite sym)) (idOp : Op 4 K) 1 := by rw [l_one]; op_rep
theorem hub_id' (sym : Sym) : Rep (hubOcc (hubSite sym)) (hubOps im (hubSite sym)).id 1 := by rw [l_one]; op_rep
theorem hub_f (sym : Sym) : Rep (hubOcc (hubSite sym)) (hubOps im (hubSite sym)).f par := by rw [l_par]; op_rep
theorem hub_bupcF (sym : Sym) : Rep (hubOcc (hubSite sym)) (hubOps im (hubSite sym)).bupcF ((loc .up).transpose * par) := by rw [l_ucp]; op_rep
theorem hub_bupa (sym : Sym) : Rep (hubOcc (hubSite sym)) (hubOps im (hubSite sym)).bupa (loc .up) := by op_rep
theorem hub_bupaF (sym : Sym) : Rep (hubOcc (hubSite sym)) (hubOps im (hubSite sym)).bupaF ((-1 : K) • (par * loc .up)) := by rw [l_mpua]; op_rep
theorem hub_bupc (sym : Sym) : Rep (hubOcc (hubSite sym)) (hubOps im (hubSite sym)).bupc (loc .up).transpose := by op_rep
theorem hub_bdnc (sym : Sym) : Rep (hubOcc (hubSite sym)) (hubOps im (hubSite sym)).bdnc ((loc .dn).transpose * par) := by rw [l_dcp]; op_rep
theorem hub_Fbdna (sym : Sym) : Rep (hubOcc (hubSite sym)) (hubOps im (hubSite sym)).Fbdna (loc .dn) := by op_rep
theorem hub_bdna (sym : Sym) : Rep (hubOcc (hubSite sym)) (hubOps im (hubSite sym)).bdna (par * loc .dn) := by rw [l_pda]; op_rep
theorem hub_Fbdnc (sym : Sym) : Rep (hubOcc (hubSite sym)) (hubOps im (hubSite sym)).Fbdnc ((-1 : K) • (loc .dn).transpose) := by rw [l_mdc]; op_rep
theorem hub_sp (sym : Sym) : Rep (hubOcc (hubSite sym)) (hubOps im (hubSite sym)).sp ((loc .up).transpose * loc .dn) := by rw [l_sp]; op_rep
theorem hub_sm (sym : Sym) : Rep (hubOcc (hubSite sym)) (hubOps im (hubSite sym)).sm ((loc .dn).transpose * loc .up) := by rw [l_sm]; op_rep
theorem hub_nup (sym : Sym) : Rep (hubOcc (hubSite sym)) (hubOps im (hubSite sym)).nup ((loc .up).transpose * loc .up) := by rw [l_nup]; op_rep
theorem hub_ndn (sym : Sym) : Rep (hubOcc (hubSite sym)) (hubOps im (hubSite sym)).ndn ((loc .dn).transpose * loc .dn) := by rw [l_ndn]; op_rep
theorem hub_cc (sym : Sym) : Rep (hubOcc (hubSite sym)) (hubOps im (hubSite sym)).cupccdnc ((loc .up).transpose * (loc .dn).transpose) := by rw [l_cc]; op_rep
theorem hub_aa (sym : Sym) : Rep (hubOcc (hubSite sym)) (hubOps im (hubSite sym)).cdnacupa (loc .dn * loc .up) := by rw [l_aa]; op_rep

/-- Sums and products of represented tensors. -/
theorem hub_sz (sym : Sym) : Rep (hubOcc (hubSite sym)) (hubOps im (hubSite sym)).sz
    ((2⁻¹ : K) • ((loc .up).transpose * loc .up - (loc .dn).transpose * loc .dn)) := by rw [l_sz]; op_rep
theorem hub_sx (sym : Sym) : Rep (hubOcc (hubSite sym)) (hubOps im (hubSite sym)).sx
    ((2⁻¹ : K) • ((loc .up).transpose * loc .dn + (loc .dn).transpose * loc .up)) := by rw [l_sx]; op_rep
theorem hub_sy (sym : Sym) : Rep (hubOcc (hubSite sym)) (hubOps im (hubSite sym)).sy
    ((-(2⁻¹ * im) : K) • ((loc .up).transpose * loc .dn - (loc .dn).transpose * loc .up)) := by rw [l_sy]; op_rep
theorem hub_nupndn (sym : Sym) : Rep (hubOcc (hubSite sym)) (hubOps im (hubSite sym)).nupndn
    (((loc .up).transpose * loc .up) * ((loc .dn).transpose * loc .dn)) := by rw [l_nn]; op_rep
theorem hub_nf (sym : Sym) : Rep (hubOcc (hubSite sym)) (hubOps im (hubSite sym)).nf
    ((loc .up).transpose * loc .up + (loc .dn).transpose * loc .dn) := by rw [l_nf]; op_rep
theorem hub_nfsquare (sym : Sym) : Rep (hubOcc (hubSite sym)) (hubOps im (hubSite sym)).nfsquare
    (((loc .up).transpose * loc .up + (loc .dn).transpose * loc .dn) * ((loc .up).transpose * loc .up + (loc .dn).transpose * loc .dn)) := by rw [l_nfsq]; op_rep
theorem hub_f' (sym : Sym) : Rep (hubOcc (hubSite sym)) (hubOps im (hubSite sym)).f
    ((1 - (2 : K) • ((loc .up).transpose * loc .up)) * (1 - (2 : K) • ((loc .dn).transpose * loc .dn))) := by rw [l_parity]; exact hub_f im sym

end

theorem tj_id (sym : Sym) : Rep (tjOcc (tjSite sym)) (idOp : Op 3 K) 1 := by rw [l_one]; op_rep
theorem tj_id' (sym : Sym) : Rep (tjOcc (tjSite sym)) (tjOps (K := K) (tjSite sym)).id 1 := by rw [l_one]; op_rep
theorem tj_f (sym : Sym) : Rep (tjOcc (tjSite sym)) (tjOps (K := K) (tjSite sym)).f par := by rw [l_par]; op_rep
theorem tj_bupc (sym : Sym) : Rep (tjOcc (tjSite sym)) (tjOps (K := K) (tjSite sym)).bupc (loc .up).transpose := by op_rep
theorem tj_bupc' (sym : Sym) : Rep (tjOcc (tjSite sym)) (tjOps (K := K) (tjSite sym)).bupc ((loc .up).transpose * par) := by rw [l_ucp]; op_rep
theorem tj_bupa (sym : Sym) : Rep (tjOcc (tjSite sym)) (tjOps (K := K) (tjSite sym)).bupa (loc .up) := by op_rep
theorem tj_bupa' (sym : Sym) : Rep (tjOcc (tjSite sym)) (tjOps (K := K) (tjSite sym)).bupa (par * loc .up) := by rw [l_pua]; op_rep
theorem tj_bdnc (sym : Sym) : Rep (tjOcc (tjSite sym)) (tjOps (K := K) (tjSite sym)).bdnc (loc .dn).transpose := by op_rep
theorem tj_bdnc' (sym : Sym) : Rep (tjOcc (tjSite sym)) (tjOps (K := K) (tjSite sym)).bdnc ((loc .dn).transpose * par) := by rw [l_dcp]; op_rep
theorem tj_bdna (sym : Sym) : Rep (tjOcc (tjSite sym)) (tjOps (K := K) (tjSite sym)).bdna (loc .dn) := by op_rep
theorem tj_bdna' (sym : Sym) : Rep (tjOcc (tjSite sym)) (tjOps (K := K) (tjSite sym)).bdna (par * loc .dn) := by rw [l_pda]; op_rep
theorem tj_sp (sym : Sym) : Rep (tjOcc (tjSite sym)) (tjOps (K := K) (tjSite sym)).sp ((loc .up).transpose * loc .dn) := by rw [l_sp]; op_rep
theorem tj_sm (sym : Sym) : Rep (tjOcc (tjSite sym)) (tjOps (K := K) (tjSite sym)).sm ((loc .dn).transpose * loc .up) := by rw [l_sm]; op_rep
theorem tj_nup (sym : Sym) : Rep (tjOcc (tjSite sym)) (tjOps (K := K) (tjSite sym)).nup ((loc .up).transpose * loc .up) := by rw [l_nup]; op_rep
theorem tj_ndn (sym : Sym) : Rep (tjOcc (tjSite sym)) (tjOps (K := K) (tjSite sym)).ndn ((loc .dn).transpose * loc .dn) := by rw [l_ndn]; op_rep
theorem tj_nf (sym : Sym) : Rep (tjOcc (tjSite sym)) (tjOps (K := K) (tjSite sym)).nf
    ((loc .up).transpose * loc .up + (loc .dn).transpose * loc .dn) := by rw [l_nf]; op_rep
theorem tj_sz (sym : Sym) : Rep (tjOcc (tjSite sym)) (tjOps (K := K) (tjSite sym)).sz
    ((2⁻¹ : K) • ((loc .up).transpose * loc .up - (loc .dn).transpose * loc .dn)) := by rw [l_sz]; op_rep
/-- The tensor named after `c†_↓ c_↑` holds the matrix elements of `c†_↑ c_↓`. -/
theorem tj_du (sym : Sym) : Rep (tjOcc (tjSite sym)) (tjOps (K := K) (tjSite sym)).bdnc_multi_bupa ((loc .up).transpose * loc .dn) := by rw [l_sp]; op_rep
theorem tj_ud (sym : Sym) : Rep (tjOcc (tjSite sym)) (tjOps (K := K) (tjSite sym)).bupc_multi_bdna ((loc .dn).transpose * loc .up) := by rw [l_sm]; op_rep

/-! Spin one half. -/

theorem spin_labels {sym : Sym} {s : SpinSite} (h : spinSite sym = some s) : s = ⟨0, 1, s.bond⟩ := by
  cases sym <;> simp [spinSite] at h <;> subst h <;> rfl

macro "spin_rep" h:ident : tactic => `(tactic| (
  rw [spin_labels $h]
  intro c r
  fin_cases c <;> fin_cases r <;> rfl))

section
variable (im : K)
theorem spin_id {sym : Sym} {s : SpinSite} (h : spinSite sym = some s) : Rep (spinOcc s) (idOp : Op 2 K) 1 := by rw [l_one]; spin_rep h
theorem spin_id' {sym : Sym} {s : SpinSite} (h : spinSite sym = some s) : Rep (spinOcc s) (spinOps im s).id 1 := by rw [l_one]; spin_rep h
theorem spin_sp {sym : Sym} {s : SpinSite} (h : spinSite sym = some s) : Rep (spinOcc s) (spinOps im s).sp ((loc .up).transpose * loc .dn) := by
  rw [l_sp]; spin_rep h
theorem spin_sm {sym : Sym} {s : SpinSite} (h : spinSite sym = some s) : Rep (spinOcc s) (spinOps im s).sm ((loc .dn).transpose * loc .up) := by
  rw [l_sm]; spin_rep h
theorem spin_sz {sym : Sym} {s : SpinSite} (h : spinSite sym = some s) : Rep (spinOcc s) (spinOps im s).sz
    ((2⁻¹ : K) • ((loc .up).transpose * loc .up - (loc .dn).transpose * loc .dn)) := by rw [l_sz]; spin_rep h
theorem spin_sx {sym : Sym} {s : SpinSite} (h : spinSite sym = some s) : Rep (spinOcc s) (spinOps im s).sx
    ((2⁻¹ : K) • ((loc .up).transpose * loc .dn + (loc .dn).transpose * loc .up)) := by rw [l_sx]; spin_rep h
theorem spin_sy {sym : Sym} {s : SpinSite} (h : spinSite sym = some s) : Rep (spinOcc s) (spinOps im s).sy
    ((-(2⁻¹ * im) : K) • ((loc .up).transpose * loc .dn - (loc .dn).transpose * loc .up)) := by rw [l_sy]; spin_rep h
end

end Verif.Fock
