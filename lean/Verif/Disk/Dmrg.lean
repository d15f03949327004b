import Verif.Disk.Boundary
/-
The DMRG executor (algorithm/dmrg/dmrg_impl.h, dmrg_init.h, operator_io.h).

It sweeps like the two-site variational algorithm, but an environment is a group of block operators, one for each
bond state of the MPO, and every component of a group is a file of its own, `lop<k>Comp<c>` and `rop<k>Comp<c>`.
Between two local updates it looks at two flags that signal handlers may have set.
-/
namespace Verif.Disk

variable {T O : Type}

/-- The MPS directory, and the files of the left and right block operators by block length and component
(operator_io.h:21-31). -/
structure CDsk (T O : Type) where
  m : Nat → File T
  l : Nat → Nat → File O
  r : Nat → Nat → File O

/-- Memory and disk. A group of block operators is a list; a slot of `lopg_vec_` or `ropg_vec_` that was cleared, or
never filled, is `none` (in the code it is an empty vector, and using it fails an assertion or is undefined
behaviour). -/
structure CSys (T O : Type) where
  mem : Mem T (List O)
  dsk : CDsk T O

/-- `ReadOperatorGroup` into a group of `n` components (operator_io.h:48-61). The code only returns `false` if a file
cannot be read, and the callers ignore it and go on with default tensors; the model stops with an error. -/
def readGrp (f : Nat → File O) (n : Nat) : Except Err (List O) := (List.range n).mapM fun c => (f c).get

/-- `WriteOperatorGroup` (operator_io.h:33-45). -/
def writeGrp (f : Nat → File O) (es : List O) : Nat → File O := fun c =>
  match es[c]? with
  | some e => .whole e
  | none => f c

/-- The removals in `ReadAndRemoveOperatorGroup` (operator_io.h:63-77). -/
def removeGrp (f : Nat → File O) (n : Nat) : Nat → File O := fun c => if c < n then .gone else f c

/-- A program on the component files. `w i` is the dimension of the MPO bond to the left of site `i`: the matrix of
site `i` has `rows = w i` and `cols = w (i+1)`. So the left group of the sites `0 … k-1` has `w k` components
(dmrg_impl.h:405, 441), and the right group of the last `k` sites has `w (N-k)` (dmrg_impl.h:407, 428: the columns of
site `N-1-k`). Both vectors of groups have length `N` (dmrg_impl.h:126). -/
def cexec (w : Nat → Nat) (N : Nat) : Op T (List O) → CSys T O → Except Err (CSys T O)
  | .ldM i, s =>
    if i < N then do
      let t ← (s.dsk.m i).get
      pure ⟨{ s.mem with m := Function.update s.mem.m i (some t) }, s.dsk⟩
    else .error .ub
  | .ldL k, s =>
    if k < N then do
      let e ← readGrp (s.dsk.l k) (w k)
      pure ⟨{ s.mem with l := Function.update s.mem.l k (some e) }, s.dsk⟩
    else .error .ub
  | .ldR k, s =>
    if k < N then do
      let e ← readGrp (s.dsk.r k) (w (N - k))
      pure ⟨{ s.mem with r := Function.update s.mem.r k (some e) }, s.dsk⟩
    else .error .ub
  | .dpM i rel, s =>
    if i < N then .ok ⟨{ s.mem with m := if rel then Function.update s.mem.m i none else s.mem.m },
      { s.dsk with m := Function.update s.dsk.m i (dumped (s.mem.m i)) }⟩
    else .error .ub
  | .dpL k, s =>
    if k < N then .ok ⟨s.mem, { s.dsk with l := Function.update s.dsk.l k (writeGrp (s.dsk.l k) ((s.mem.l k).getD [])) }⟩
    else .error .ub
  | .dpR k, s =>
    if k < N then .ok ⟨s.mem, { s.dsk with r := Function.update s.dsk.r k (writeGrp (s.dsk.r k) ((s.mem.r k).getD [])) }⟩
    else .error .ub
  | .wrL k, s => .ok ⟨s.mem, { s.dsk with l := Function.update s.dsk.l k (writeGrp (s.dsk.l k) (s.mem.reg.getD [])) }⟩
  | .wrR k, s => .ok ⟨s.mem, { s.dsk with r := Function.update s.dsk.r k (writeGrp (s.dsk.r k) (s.mem.reg.getD [])) }⟩
  | .rmL k, s => .ok ⟨s.mem, { s.dsk with l := Function.update s.dsk.l k (removeGrp (s.dsk.l k) (w k)) }⟩
  | .rmR k, s => .ok ⟨s.mem, { s.dsk with r := Function.update s.dsk.r k (removeGrp (s.dsk.r k) (w (N - k))) }⟩
  | .frM i, s =>
    if i < N then .ok ⟨{ s.mem with m := Function.update s.mem.m i none }, s.dsk⟩ else .error .ub
  | .frL k, s =>
    if k < N then .ok ⟨{ s.mem with l := Function.update s.mem.l k none }, s.dsk⟩ else .error .ub
  | .frR k, s =>
    if k < N then .ok ⟨{ s.mem with r := Function.update s.mem.r k none }, s.dsk⟩ else .error .ub
  | .calc f, s => do
    let m ← f s.mem
    pure ⟨m, s.dsk⟩

/-- A program without signals. -/
def crun (w : Nat → Nat) (N : Nat) : List (Op T (List O)) → CSys T O → Except Err (CSys T O)
  | [], s => .ok s
  | o :: os, s => do
    let s1 ← cexec w N o s
    crun w N os s1

section
variable (A : Alg T (List O)) (w : Nat → Nat) (N : Nat)

/-- `SetEffectiveHamiltonianTerms_` and `TwoSiteUpdate_` moving right with `l_site_ = i` (dmrg_impl.h:213-341),
including the assertion of `UpdateLeftBlockOps` (dmrg_init.h:184). -/
def dUpdR (i : Nat) (s : Mem T (List O)) : Except Err (Mem T (List O)) :=
  if i + 1 < N then do
    let e ← use (s.l i)
    let f ← use (s.r (N - (i + 2)))
    let t ← use (s.m i)
    let u ← use (s.m (i + 1))
    let p := A.opt s.clk .r i e f t u
    if e.length = w i then
      pure { s with
        m := Function.update (Function.update s.m i (some p.1)) (i + 1) (some p.2)
        r := Function.update s.r (N - (i + 2)) none
        l := Function.update s.l (i + 1) (some (A.growL i e p.1))
        clk := s.clk + 1 }
    else .error .assertFail
  else .error .ub

/-- The same moving left with `r_site_ = i`, including the assertion of `UpdateRightBlockOps` (dmrg_init.h:139). -/
def dUpdL (i : Nat) (s : Mem T (List O)) : Except Err (Mem T (List O)) :=
  if 1 ≤ i ∧ i < N then do
    let e ← use (s.l (i - 1))
    let f ← use (s.r (N - 1 - i))
    let t ← use (s.m (i - 1))
    let u ← use (s.m i)
    let p := A.opt s.clk .l i e f t u
    if f.length = w (i + 1) then
      pure { s with
        m := Function.update (Function.update s.m (i - 1) (some p.1)) i (some p.2)
        l := Function.update s.l (i - 1) none
        r := Function.update s.r (N - i) (some (A.growR i f p.2))
        clk := s.clk + 1 }
    else .error .assertFail
  else .error .ub

/-- `LoadRelatedTensSweep_` moving right (dmrg_impl.h:403-425). -/
def dLoadR (lb i : Nat) : List (Op T (List O)) :=
  (if i = lb then [.ldM i, .ldL i] else [.ldM (i + 1)]) ++ [.ldR (N - (i + 2)), .rmR (N - (i + 2))]

/-- `LoadRelatedTensSweep_` moving left (dmrg_impl.h:426-449). -/
def dLoadL (rb i : Nat) : List (Op T (List O)) :=
  (if i = rb then [.ldM i, .ldR (N - 1 - i)] else [.ldM (i - 1)]) ++ [.ldL (i - 1), .rmL (i - 1)]

/-- `DumpRelatedTensSweep_` moving right (dmrg_impl.h:348-358). -/
def dDumpR (i : Nat) : List (Op T (List O)) := [.frL i, .frR (N - (i + 2)), .dpM i true, .dpL (i + 1)]

/-- `DumpRelatedTensSweep_` moving left (dmrg_impl.h:348-349, 359-366). -/
def dDumpL (i : Nat) : List (Op T (List O)) := [.frL (i - 1), .frR (N - (i + 1)), .dpM i true, .dpR (N - i)]

/-- One iteration of the first loop of `DMRGSweep_` before the flag is looked at (dmrg_impl.h:175-181). -/
def dStepR (lb i : Nat) : List (Op T (List O)) := dLoadR N lb i ++ .calc (dUpdR A w N i) :: dDumpR N i

/-- One iteration of the second loop (dmrg_impl.h:189-195); `i = r_site_`. -/
def dStepL (rb i : Nat) : List (Op T (List O)) := dLoadL N rb i ++ .calc (dUpdL A w N i) :: dDumpL N i

end

/-! ### Initialisation -/

/-- `NeedGenerateBlockOps` (dmrg_init.h:90-116): some component of a right group from the right boundary to the site
after the left boundary is missing. A missing directory is one without files. -/
def needOps (w : Nat → Nat) (N lb rb : Nat) (d : CDsk T O) : Bool :=
  (List.range' (N - 1 - rb) (rb - lb)).any fun k => (List.range (w (N - k))).any fun c => !(d.r k c).present

/-- `InitBlockOps` (dmrg_init.h:281-312) for `lb + 2 ≤ N`. -/
def initOps (A : Alg T (List O)) (N lb : Nat) : List (Op T (List O)) :=
  .ldM (N - 1) :: .calc (startR A N) :: .wrR 0 :: (List.range' 1 (N - (lb + 2))).flatMap (initStep A N)

/-- One iteration of the first loop of `UpdateBoundaryBlockOps` (dmrg_init.h:229-234). -/
def bndR (A : Alg T (List O)) (N i : Nat) : List (Op T (List O)) :=
  (if 1 < i then [.ldM (N - i)] else []) ++ [.calc (pushR A (N - i)), .frM (N - i)]

/-- One iteration of the second loop (dmrg_init.h:254-259). -/
def bndL (A : Alg T (List O)) (i : Nat) : List (Op T (List O)) :=
  (if 0 < i then [.ldM i] else []) ++ [.calc (pushL A i), .frM i]

/-- `UpdateBoundaryBlockOps` (dmrg_init.h:207-265), with the assertion that follows it (line 85). -/
def boundOps (A : Alg T (List O)) (N lb rb : Nat) : List (Op T (List O)) :=
  .ldM (N - 1) :: .calc (startR A N) :: ((List.range' 1 (N - rb - 1)).flatMap (bndR A N) ++
    (.wrR (N - 1 - rb) :: .ldM rb :: .calc (pushR A rb) :: .frM rb :: .wrR (N - rb) ::
      .ldM 0 :: .calc (startL A) :: ((if 0 < lb then (List.range lb).flatMap (bndL A) else [.frM 0]) ++
        [.wrL lb, .calc (assertEmpty N)])))

/-- `DMRGInit_` (dmrg_init.h:55-86) in a directory with the block operators `d`. -/
def dmrgInit (A : Alg T (List O)) (G : Gauge T) (bl br : Nat → Bool) (w : Nat → Nat) (N : Nat) (d : CDsk T O) :
    List (Op T (List O)) :=
  checkBoundary G bl br N ++ ((if needOps w N (lbOf bl N) (rbOf br N) d then initOps A N (lbOf bl N) else []) ++
    boundOps A N (lbOf bl N) (rbOf br N))

/-- `DMRGPostProcess_` (dmrg_impl.h:458-470); `P.gr i` is `RightCanonicalizeTen(i)`, which acts on the sites `i-1`
and `i`. -/
def dmrgPost (P : Gauge T) (lb : Nat) : List (Op T (List O)) :=
  .ldM (lb + 1) :: ((List.range' 1 (lb + 1)).reverse.flatMap (fun i => [.ldM (i - 1), .calc (canR P i), .dpM i false]) ++
    [.dpM 0 false])

/-! ### The loop over the sweeps, with signals -/

/-- The two flags `stop_requested_` and `emergency_stop_requested_` at some moment (dmrg_impl.h:113-114). -/
structure Flags where
  stop : Bool
  em : Bool
  deriving DecidableEq, Repr

/-- What the program sees when it looks at the flags: `at q p` in sweep `q` (counted from 0), where `p` counts the
local updates, and the two looks after the sweep have the numbers `p = M` and `p = M + 1` if a sweep has `M` updates;
`fin` before the final dump (dmrg_impl.h:155-160, 182, 196). -/
structure Sig where
  look : Nat → Nat → Flags
  fin : Flags

section
variable (A : Alg T (List O)) (w : Nat → Nat) (N : Nat)

/-- One of the two loops of `DMRGSweep_` (dmrg_impl.h:174-186 and 188-200): after every update the flag is looked at,
and if it is set the tensor at `ed i` is dumped (`EmergencyDumpRelatedTens_`, dmrg_impl.h:374-393) and the sweep is
left. The second result tells so. -/
def dHalf (step : Nat → List (Op T (List O))) (ed : Nat → Nat) (sg : Nat → Flags) :
    Nat → List Nat → CSys T O → Except Err (CSys T O × Bool)
  | _, [], s => .ok (s, false)
  | p, i :: is, s => do
    let s1 ← crun w N (step i) s
    if (sg p).em then do
      let s2 ← crun w N [.dpM (ed i) true] s1
      pure (s2, true)
    else dHalf step ed sg (p + 1) is s1

/-- `DMRGSweep_` (dmrg_impl.h:172-202). -/
def dSweep (lb rb : Nat) (sg : Nat → Flags) (s : CSys T O) : Except Err (CSys T O) := do
  let (s1, left) ← dHalf w N (dStepR A w N lb) (fun i => i + 1) sg 0 (sitesR lb rb) s
  if left then pure s1
  else do
    let (s2, _) ← dHalf w N (dStepL A w N rb) (fun i => i - 1) sg (rb - 1 - lb) (sitesL lb rb) s1
    pure s2

/-- The loop over `k` more sweeps (dmrg_impl.h:149-159), beginning with number `q`. -/
def dSweeps (lb rb : Nat) (sg : Sig) : Nat → Nat → CSys T O → Except Err (CSys T O)
  | 0, _, s => .ok s
  | k + 1, q, s => do
    let s1 ← dSweep A w N lb rb (sg.look q) s
    if (sg.look q (2 * (rb - 1 - lb))).stop || (sg.look q (2 * (rb - 1 - lb) + 1)).em then pure s1
    else dSweeps lb rb sg k (q + 1) s1

/-- `Execute` after the initialisation (dmrg_impl.h:147-164). -/
def dMain (P : Gauge T) (lb rb k : Nat) (sg : Sig) (s : CSys T O) : Except Err (CSys T O) := do
  let s1 ← crun w N [.ldM (lb + 1)] s
  let s2 ← dSweeps A w N lb rb sg k 0 s1
  if sg.fin.em then pure s2
  else crun w N (.dpM (lb + 1) true :: dmrgPost P lb) s2

/-- `DMRGExecutor::Execute` with `k` sweeps (dmrg_impl.h:140-165). -/
def dmrg (G P : Gauge T) (bl br : Nat → Bool) (k : Nat) (sg : Sig) (s : CSys T O) : Except Err (CSys T O) := do
  let s1 ← crun w N (dmrgInit A G bl br w N s.dsk) s
  dMain A w N P (lbOf bl N) (rbOf br N) k sg s1

end

/-! ### Specification -/

/-- **Specification**: the local updates of a sweep in their order: the pairs from left to right, then back. -/
def updates (lb rb : Nat) : List (Dir × Nat) :=
  (List.range' lb (rb - 1 - lb)).map (Dir.r, ·) ++ (List.range' (lb + 2) (rb - 1 - lb)).reverse.map (Dir.l, ·)

/-- **Specification**: one local update of an MPS without files. -/
def optOne (A : Alg T (List O)) (N : Nat) (ψ : (Nat → T) × Nat) : Dir × Nat → (Nat → T) × Nat
  | (.r, i) => optR A N ψ i
  | (.l, i) => optL A N ψ i

/-- **Specification**: the first `p` updates of a sweep. -/
def optFirst (A : Alg T (List O)) (N lb rb p : Nat) (ψ : (Nat → T) × Nat) : (Nat → T) × Nat :=
  ((updates lb rb).take p).foldl (optOne A N) ψ

/-- **Specification**: the centre is moved from site `lb+1` to site 0. -/
def centred (P : Gauge T) (lb : Nat) (ψ : Nat → T) : Nat → T := (List.range' 1 (lb + 1)).reverse.foldl (gaugeR P) ψ

/-- **Specification**: the component files `f` hold exactly the group `es`. -/
def Holds (f : Nat → File O) (es : List O) : Prop := ∀ c (h : c < es.length), f c = .whole es[c]

/-- **Specification**: the block operators on disk that a sweep starts with. -/
structure OpsReady (A : Alg T (List O)) (N lb rb : Nat) (ψ : Nat → T) (d : CDsk T O) : Prop where
  l : Holds (d.l lb) (A.lenv ψ lb)
  r : ∀ k, N ≤ k + 1 + rb → k + lb + 2 ≤ N → Holds (d.r k) (A.renv N ψ k)

/-- **Specification**: the MPS directory holds `ψ`. -/
def COnDisk (N : Nat) (ψ : Nat → T) (d : CDsk T O) : Prop := ∀ j, j < N → d.m j = .whole (ψ j)

/-- The numbers of block operators fit the MPO: one for the empty blocks' single bond state, and growing over site `i`
takes a group for one bond of the site to one for the other (dmrg_init.h:140, 185). -/
structure Alg.Dims (A : Alg T (List O)) (w : Nat → Nat) (N : Nat) : Prop where
  tl : ∀ t, (A.trivL t).length = w 0
  tr : ∀ t, (A.trivR t).length = w N
  gl : ∀ i e t, e.length = w i → (A.growL i e t).length = w (i + 1)
  gr : ∀ i e t, e.length = w (i + 1) → (A.growR i e t).length = w i

end Verif.Disk
