import Verif.Mps.Vmps
import Verif.Disk.Noised
/-
The numbers of the two-site variational optimisation with noise (algorithm/vmps/two_site_update_noise_finite_vmps_impl.h): the expansion of a two-site
block and of the tensor behind it, and the local update, with dense tensors over `ℝ` or `ℂ` in exact arithmetic. The solver and the environments are those of
Verif/Mps/Vmps.lean; the order in which tensors are loaded, used and written is that of Verif/Disk/Noised.lean, of which this is an instance.
-/
namespace Verif.Mps
open Finset Verif.Disk Verif.Algo

section
variable {σ K : Type} [CommRing K] [Fintype σ]

/-- The noise of the expansion to the right: the left environment, the block and the MPO tensors of the two sites contracted, the right bond and the last MPO bond fused to one leg, in an order
that does not matter (two_site_update_noise_finite_vmps_impl.h:448-466, 472). -/
def fusedR (e : Env3 K) (w0 w1 : Ten (σ × σ) K) (T : Blk2 σ K) (s s' : σ) (a k : Nat) : K :=
  ∑ r, ∑ r', ∑ c ∈ range e.d1, ∑ c' ∈ range w0.r, ∑ a' ∈ range e.d2,
    e.v a c a' * T.v r r' a' (k / w1.r) * w0.v (s, r) c c' * w1.v (s', r') c' (k % w1.r)

/-- The noise of the expansion to the left, the left bond and the first MPO bond fused (two_site_update_noise_finite_vmps_impl.h:514-526). -/
def fusedL (f : Env3 K) (w0 w1 : Ten (σ × σ) K) (T : Blk2 σ K) (s s' : σ) (k b : Nat) : K :=
  ∑ r, ∑ r', ∑ c ∈ range w0.r, ∑ c' ∈ range f.d1, ∑ b' ∈ range f.d2,
    T.v r r' (k / w0.l) b' * f.v b c' b' * w1.v (s', r') c c' * w0.v (s, r) (k % w0.l) c

/-- `TwoSiteFiniteVMPSExpand` with 'r' (two_site_update_noise_finite_vmps_impl.h:444-505), `T` the Lanczos vector, `x` the tensor of the next-next site. `ExpandQNBlocks` appends those components
of the fused leg to the right leg of the block whose quantum numbers the leg does not have; in a model without quantum numbers these are an arbitrary list `pick`. The left leg of `x` is filled
with zeros. -/
def expand2R (ν : K) (e : Env3 K) (w0 w1 : Ten (σ × σ) K) (pick : List Nat) (T : Blk2 σ K) (x : Ten σ K) : Blk2 σ K × Ten σ K :=
  (⟨T.l, T.r + pick.length, fun s s' a b => if b < T.r then T.v s s' a b else ν * fusedR e w0 w1 T s s' a (pick.getD (b - T.r) 0)⟩,
   ⟨T.r + pick.length, x.r, fun y k b => if k < T.r then x.v y k b else 0⟩)

/-- With 'l' (two_site_update_noise_finite_vmps_impl.h:506-554); `x` is the tensor of the next-next site, which is to the left of the block. The components are appended to the left leg of the
block, the right leg of `x` is filled with zeros. -/
def expand2L (ν : K) (f : Env3 K) (w0 w1 : Ten (σ × σ) K) (pick : List Nat) (x : Ten σ K) (T : Blk2 σ K) : Ten σ K × Blk2 σ K :=
  (⟨x.l, T.l + pick.length, fun y a k => if k < T.l then x.v y a k else 0⟩,
   ⟨T.l + pick.length, T.r, fun s s' a b => if a < T.l then T.v s s' a b else ν * fusedL f w0 w1 T s s' (pick.getD (a - T.l) 0) b⟩)

end

section
variable {σ 𝕜 : Type} [RCLike 𝕜] [Fintype σ] [DecidableEq σ]

/-- The parameters of the run: those of the optimisation without noise; the MPO tensor of the right site as the expansion to the right of the pair `(i, i+1)` uses it (`wr i`: the tensor
itself, or, if the arrow of the bond points inwards, the factor of its decomposition, two_site_update_noise_finite_vmps_impl.h:452-466); whether `IsQNCovered` holds of the sectors of the
two tensors, an arbitrary predicate (two_site_update_noise_finite_vmps_impl.h:284-329; the function itself is the subject of C41); the components of the fused leg that the expansion of a block appends, an arbitrary function of
the block; the noise given to each update, counted over the whole run; and the QR decomposition of
`LeftCanonicalizeTen`. (The rule by which the program chooses the noises is joined to the run in `tnAdapt`.) -/
structure TnPar (σ 𝕜 : Type) extends VmpsPar σ 𝕜 where
  wr : Nat → Ten (σ × σ) 𝕜
  covered : Dir → Nat → Ten σ 𝕜 → Ten σ 𝕜 → Bool
  pick : Dir → Nat → Blk2 σ 𝕜 → List Nat
  noise : Nat → ℝ
  qr : Ten σ 𝕜 → Ten σ 𝕜 × Mat 𝕜

/-- `need_expand` (two_site_update_noise_finite_vmps_impl.h:291-338). -/
noncomputable def tnNeed (P : TnPar σ 𝕜) (ν : ℝ) (dir : Dir) (i : Nat) (t u : Ten σ 𝕜) : Bool := by
  classical
  exact !decide (|ν| < 1e-10) && !P.covered dir i t u

/-- The block and the next-next tensor after the expansion, moving right (two_site_update_noise_finite_vmps_impl.h:340-349); `t` and `u` are the old tensors of the pair `(i, i+1)`. -/
noncomputable def tnExpR (P : TnPar σ 𝕜) (ν : ℝ) (i : Nat) (e : Env3 𝕜) (t u : Ten σ 𝕜) (T : Blk2 σ 𝕜) (x : Ten σ 𝕜) : Blk2 σ 𝕜 × Ten σ 𝕜 :=
  if tnNeed P ν .r i t u then expand2R (ν : 𝕜) e (P.w i) (P.wr i) (P.pick .r i T) T x else (T, x)

/-- The same moving left (two_site_update_noise_finite_vmps_impl.h:331-340, 506-551). -/
noncomputable def tnExpL (P : TnPar σ 𝕜) (ν : ℝ) (i : Nat) (f : Env3 𝕜) (t u : Ten σ 𝕜) (x : Ten σ 𝕜) (T : Blk2 σ 𝕜) : Ten σ 𝕜 × Blk2 σ 𝕜 :=
  if tnNeed P ν .l i t u then expand2L (ν : 𝕜) f (P.w i) (P.w (i + 1)) (P.pick .l i T) x T else (x, T)

/-- `TwoSiteFiniteVMPSUpdate` without the growth of the environment (two_site_update_noise_finite_vmps_impl.h:213-391); `t`, `u`, `v` are the tensors of three neighbouring sites. Moving right the
target is the first, moving left the last. Each new tensor carries the energy the update prints and returns (two_site_update_noise_finite_vmps_impl.h:418-429). If the solver does not return (`max_iterations < 2`), nothing is said. -/
noncomputable def tnUpd (P : TnPar σ 𝕜) (ν : ℝ) (dir : Dir) (i : Nat) (e f : Env3 𝕜) (t u v : Ten σ 𝕜) : LTen σ 𝕜 × LTen σ 𝕜 × LTen σ 𝕜 :=
  match dir with
  | .r => match lanczosAt P.toVmpsPar i e f t u with
    | none => (⟨t, none⟩, ⟨u, none⟩, ⟨v, none⟩)
    | some g =>
      let q := tnExpR P ν i e t u (ofV g.vec) v
      (⟨(P.splitR q.1).1, some g.energy⟩, ⟨(P.splitR q.1).2, some g.energy⟩, ⟨q.2, some g.energy⟩)
  | .l => match lanczosAt P.toVmpsPar (i - 1) e f u v with
    | none => (⟨t, none⟩, ⟨u, none⟩, ⟨v, none⟩)
    | some g =>
      let q := tnExpL P ν (i - 1) f u v t (ofV g.vec)
      (⟨q.1, some g.energy⟩, ⟨(P.splitL q.2).1, some g.energy⟩, ⟨(P.splitL q.2).2, some g.energy⟩)

/-- The local work of the run: the noise of the step, counted in `c`, and the update. -/
noncomputable def tnOpt (P : TnPar σ 𝕜) : Opt3 (LTen σ 𝕜) (Env3 𝕜) :=
  fun c dir i e f t u v => (tnUpd P (P.noise c) dir i e f t.ten u.ten v.ten, c + 1)

/-- `LeftCanonicalizeTen` at the end (two_site_update_noise_finite_vmps_impl.h:121; finite_mps.h:194-214). -/
def tnCanon (P : TnPar σ 𝕜) : Disk.Canon (LTen σ 𝕜) :=
  fun t u => (⟨(P.qr t.ten).1, t.e0⟩, ⟨mulL (P.qr t.ten).2 (P.qr t.ten).1.r u.ten, u.e0⟩)

/-- `CalEnergyEptTwoSite` (two_site_update_noise_finite_vmps_impl.h:688-722): `H|T⟩` of the two-site Hamiltonian contracted with the conjugated block of the tensors `t` and `u`; the program keeps
the real part. -/
noncomputable def tnEnergy (e f : Env3 𝕜) (w0 w1 : Ten (σ × σ) 𝕜) (t u : Ten σ 𝕜) : ℝ :=
  RCLike.re (inner 𝕜 (toV (mergeTen t u)) (effHam e f w0 w1 (mergeTen t u).l (mergeTen t u).r (toV (mergeTen t u))))

end
end Verif.Mps
