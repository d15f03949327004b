import Verif.Mps.DiskMeasure
/-
The measurement and the initial operator of two-site TDVP (algorithm/tdvp/two_site_update_finite_tdvp_impl.h).

A directory with an MPS is the list of its tensors. The directory of the measurement holds the right blocks
`r0`, `r1`, ….
-/
namespace Verif.Mps
open Finset

section
variable {σ K : Type} [CommRing K] [StarRing K] [Fintype σ]

/-- A block between two chains: the dimensions of its legs, the first of the bra, the second of the ket, and its
entries. -/
structure Blk (K : Type) where
  d' : Nat
  d : Nat
  v : Mat K

/-- The boundary tensors with the single entry 1 at `{0, 0}` (two_site_update_finite_tdvp_impl.h:560-563, 586-590). -/
def Blk.start (d' d : Nat) : Except Err (Blk K) :=
  if 0 < d' ∧ 0 < d then .ok ⟨d', d, fun x y => if x = 0 ∧ y = 0 then 1 else 0⟩ else .error .ub

/-- A right block grows by one site, `t` of the ket and `u` of the bra (two_site_update_finite_tdvp_impl.h:575-578). -/
def Blk.growR (t u : Ten σ K) (R : Blk K) : Except Err (Blk K) :=
  if u.r = R.d' ∧ t.r = R.d then
    .ok ⟨u.l, t.l, fun a' a => ∑ s, ∑ b ∈ range t.r, (∑ b' ∈ range u.r, star (u.v s a' b') * R.v b' b) * t.v s a b⟩
  else .error .ub

/-- `temp1`: the left block with the tensor of the bra (two_site_update_finite_tdvp_impl.h:608). -/
def Blk.bra (u : Ten σ K) (L : Blk K) : σ → Nat → Nat → K := fun s' b' a => ∑ a' ∈ range u.l, star (u.v s' a' b') * L.v a' a

/-- `temp2`: an operator, its second leg to the bra (two_site_update_finite_tdvp_impl.h:609, 621). -/
def withOp (o : Op σ K) (x : σ → Nat → Nat → K) : σ → Nat → Nat → K := fun s b' a => ∑ s', o s s' * x s' b' a

/-- `temp3` and the new left block: the tensor of the ket (two_site_update_finite_tdvp_impl.h:610, 618, 622). -/
def withKet (t : Ten σ K) (x : σ → Nat → Nat → K) : Mat K := fun b' b => ∑ a ∈ range t.l, ∑ s, x s b' a * t.v s a b

/-- `temp4()` (two_site_update_finite_tdvp_impl.h:611-612). -/
def Blk.close (t u : Ten σ K) (x : Mat K) (R : Blk K) : Except Err K :=
  if u.r = R.d' ∧ t.r = R.d then .ok (∑ b' ∈ range u.r, ∑ b ∈ range t.r, x b' b * R.v b' b) else .error .ub

/-- The variables of `CalPsi1OpPsi2`: the two MPS, the files of the temporary directory and the right block. -/
structure CalSt (σ K : Type) where
  m1 : FMps σ K
  m2 : FMps σ K
  files : Nat → Option (Blk K)
  R : Blk K

/-- One iteration of the loop over the right blocks (two_site_update_finite_tdvp_impl.h:567-582). -/
def calRight (disk1 disk2 : List (Ten σ K)) (N : Nat) (st : CalSt σ K) (i : Nat) : Except Err (CalSt σ K) := do
  let m1 ← (if 1 < i then loadTen disk1 st.m1 (N - i) else .ok st.m1)
  let m2 ← (if 1 < i then loadTen disk2 st.m2 (N - i) else .ok st.m2)
  let u ← m2.read (N - i)
  let t ← m1.read (N - i)
  let R ← st.R.growR t u
  let m1 ← m1.dealloc (N - i)
  let m2 ← m2.dealloc (N - i)
  pure ⟨m1, m2, Function.update st.files i (some R), R⟩

/-- The right block of site `i`: read from its file, which is removed, except at site 0 (two_site_update_finite_tdvp_impl.h:594-599). -/
def fetchR (N i : Nat) (st : CalSt σ K) : Except Err (CalSt σ K) :=
  if 0 < i then
    match st.files (N - i - 1) with
    | Option.none => .error .noFile
    | some R => .ok { st with files := Function.update st.files (N - i - 1) Option.none, R := R }
  else .ok st

/-- The left block for the next site (two_site_update_finite_tdvp_impl.h:616-625). -/
def nextL (inst : Option (Op σ K)) (t u : Ten σ K) (L : Blk K) : Blk K :=
  ⟨u.r, t.r, match inst with
    | Option.none => withKet t (L.bra u)
    | some o => withKet t (withOp o (L.bra u))⟩

/-- The loop over the sites (two_site_update_finite_tdvp_impl.h:592-627): `n` sites from `i` on, with the left block `L`. `inst = none` is the
default-constructed insertion operator. -/
def calSites (disk1 disk2 : List (Ten σ K)) (N : Nat) (op : Op σ K) (inst : Option (Op σ K)) :
    Nat → Nat → CalSt σ K → Blk K → Except Err (CalSt σ K × List K)
  | 0, _, st, _ => .ok (st, [])
  | n + 1, i, st, L => do
    let st ← fetchR N i st
    let m1 ← (if 0 < i then loadTen disk1 st.m1 i else .ok st.m1)
    let m2 ← (if 0 < i then loadTen disk2 st.m2 i else .ok st.m2)
    let u ← m2.read i
    let t ← m1.read i
    if u.l = L.d' ∧ t.l = L.d then do
      let v ← st.R.close t u (withKet t (withOp op (L.bra u)))
      let L' : Blk K := if n = 0 then L else nextL inst t u L
      let m1 ← m1.dealloc i
      let m2 ← m2.dealloc i
      let (st', vs) ← calSites disk1 disk2 N op inst n (i + 1) ⟨m1, m2, st.files, st.R⟩ L'
      pure (st', v :: vs)
    else .error .ub

/-- `CalPsi1OpPsi2` (two_site_update_finite_tdvp_impl.h:540-630): `disk1` is the directory of the evolved state, `disk2` that of the initial
state. -/
def calPsi1OpPsi2 (disk1 disk2 : List (Ten σ K)) (N : Nat) (op : Op σ K) (inst : Option (Op σ K))
    (files : Nat → Option (Blk K)) : Except Err (CalSt σ K × List K) := do
  let m1 ← loadTen disk1 (FMps.fresh N) (N - 1)
  let m2 ← loadTen disk2 (FMps.fresh N) (N - 1)
  let u ← m2.read (N - 1)
  let t ← m1.read (N - 1)
  let R ← Blk.start u.r t.r
  let st ← (List.range' 1 (N - 1)).foldlM (calRight disk1 disk2 N) ⟨m1, m2, Function.update files 0 (some R), R⟩
  let m1 ← loadTen disk1 st.m1 0
  let m2 ← loadTen disk2 st.m2 0
  let u ← m2.read 0
  let t ← m1.read 0
  let L ← Blk.start u.l t.l
  calSites disk1 disk2 N op inst N 0 ⟨m1, m2, st.files, st.R⟩ L

/-- An operator on the physical leg: `Contract(&op, mps(i), {{0}, {1}})` and the transposition (two_site_update_finite_tdvp_impl.h:35-36, 48-49): the
first leg of the operator is contracted, the second becomes the physical leg. -/
def actOp [Fintype σ] (o : Op σ K) (t : Ten σ K) : Ten σ K := ⟨t.l, t.r, fun s' a b => ∑ s, o s s' * t.v s a b⟩

/-- Load a tensor, apply an operator, and write it back (two_site_update_finite_tdvp_impl.h:33-39, 46-52). -/
def actSite (o : Op σ K) (st : List (Ten σ K) × FMps σ K) (i : Nat) : Except Err (List (Ten σ K) × FMps σ K) := do
  let m1 ← loadTen st.1 st.2 i
  let t ← m1.read i
  let m2 ← m1.write i (actOp o t)
  let m3 ← m2.dealloc i
  pure (st.1.set i (actOp o t), m3)

/-- `ActOperatorOnMps` (two_site_update_finite_tdvp_impl.h:24-54). `site - 1` at site 0 is converted to the signed value `-1`, so that the loop is
not entered. -/
def actOperator (op : Op σ K) (inst : Option (Op σ K)) (site : Nat) (st : List (Ten σ K) × FMps σ K) :
    Except Err (List (Ten σ K) × FMps σ K) := do
  let st1 ← actSite op st site
  match inst with
  | Option.none => pure st1
  | some o => (List.range site).reverse.foldlM (actSite o) st1

variable (qr svd : Ten σ K → Ten σ K × Mat K)

/-- One iteration of the right-canonicalisation (two_site_update_finite_tdvp_impl.h:148-152), at site `i > 0`. -/
def canonStep (st : List (Ten σ K) × FMps σ K) (i : Nat) : Except Err (List (Ten σ K) × FMps σ K) := do
  let m1 ← loadTen st.1 st.2 (i - 1)
  let m2 ← FMps.rightTen qr svd false m1 i
  let t ← m2.read i
  let m3 ← m2.dealloc i
  pure (st.1.set i t, m3)

/-- The preparation of the initial state in `TwoSiteFiniteTDVP` (two_site_update_finite_tdvp_impl.h:143-153): the operator, then the tensors from
`site` down to 1 are made right-canonical. `corr` is `local_op_corr`: if it is false the file of `site` is loaded into the
last slot. -/
def tdvpPrepare (corr : Bool) (op : Op σ K) (inst : Option (Op σ K)) (site : Nat) (st : List (Ten σ K) × FMps σ K) :
    Except Err (List (Ten σ K) × FMps σ K) := do
  let (d1, m1) ← actOperator op inst site st
  let s := if corr then site else m1.size - 1
  let m2 ← (match d1[site]? with
    | some t => m1.load s t
    | Option.none => .error .noFile)
  let (d2, m3) ← (List.range' 1 s).reverse.foldlM (canonStep qr svd) (d1, m2)
  let t ← m3.read 0
  let m4 ← m3.dealloc 0
  pure (d2.set 0 t, m4)

end

section
variable {S V : Type}

/-- A cell of the result: the two sites, the two times and the value (two_site_update_finite_tdvp_impl.h:102-115). -/
structure Cell (V : Type) where
  sites : Nat × Nat
  times : Rat × Rat
  avg : V

/-- Writing one result. Writing beyond the array and reading beyond the correlation vector are undefined behaviour. -/
def writeCell (site0 : Nat) (time : Rat) (base : Nat) (corr : List V) (r : List (Option (Cell V))) (i : Nat) :
    Except Err (List (Option (Cell V))) :=
  match corr[i]? with
  | some v => if base + i < r.length then .ok (r.set (base + i) (some ⟨(site0, i), (0, time), v⟩)) else .error .ub
  | Option.none => .error .ub

/-- Writing the results of one measurement (two_site_update_finite_tdvp_impl.h:173-177, 190-195). -/
def writeCells (N site0 : Nat) (time : Rat) (base : Nat) (corr : List V) (res : List (Option (Cell V))) :
    Except Err (List (Option (Cell V))) :=
  (List.range N).foldlM (writeCell site0 time base corr) res

/-- The main loop of `TwoSiteFiniteTDVP` (two_site_update_finite_tdvp_impl.h:179-197); `sweep` is the sweep on the state, `meas` the measurement and
`phase x` the multiplication by `exp(i e0 x)`. -/
def tdvpLoop (N site0 : Nat) (tau : Rat) (sweep : S → Except Err S) (meas : S → Except Err (S × List V)) (phase : Rat → V → V) :
    Nat → Nat → S → List (Option (Cell V)) → Except Err (S × List (Option (Cell V)))
  | 0, _, s, res => .ok (s, res)
  | n + 1, step, s, res => do
    let s1 ← sweep s
    let (s2, c) ← meas s1
    let time : Rat := (step + 1) * tau
    let res ← writeCells N site0 time ((step + 1) * N) (c.map (phase time)) res
    tdvpLoop N site0 tau sweep meas phase n (step + 1) s2 res

/-- The measuring part of `TwoSiteFiniteTDVP` (two_site_update_finite_tdvp_impl.h:166-201). -/
def tdvpRun (corr : Bool) (N site0 steps : Nat) (tau : Rat) (sweep : S → Except Err S) (meas : S → Except Err (S × List V))
    (phase : Rat → V → V) (s : S) : Except Err (S × List (Option (Cell V))) := do
  let res := List.replicate (if corr then N * (steps + 1) else steps + 1) Option.none
  let (s1, c) ← meas s
  let res ← writeCells N site0 0 0 c res
  tdvpLoop N site0 tau sweep meas phase steps 0 s1 res

end
end Verif.Mps
