import Verif.Mpi.OrdersSpec

/-!
# All executions of the parallel two-site programs
-/
namespace Verif.Mpi
open Function Finset

section
variable {T O D L P U SL VL : Type} [AddCommMonoid T] [AddCommMonoid O] {E : Eng T O D L P U SL} {A : Full T O D U}
  {lact : Nat → SL → Act SL VL} {W : Nat} {kind : Kind} {Q : (Nat → Pg T O D SL VL) → Prop}

/-- Abbreviation: all executions from master `M`, workers `w` end well. -/
abbrev GoodE (E : Eng T O D L P U SL) (lact : Nat → SL → Act SL VL) (W : Nat) (kind : Kind) (Q : (Nat → Pg T O D SL VL) → Prop)
    (M : Pg T O D SL VL) (w : Nat → Pg T O D SL VL) : Prop := Good lact (E.wBody lact W kind) W Q M w

/-- A worker that waits for the master. -/
def Waits (E : Eng T O D L P U SL) (lact : Nat → SL → Act SL VL) (W : Nat) (kind : Kind) (w : Nat → Pg T O D SL VL) : Prop :=
  ∀ r, 1 ≤ r → r ≤ W → ∃ tag k, pact lact (E.wBody lact W kind) r (w r) = .recv (some 0) tag k

theorem waits_head (f : Nat → WHd T) : Waits E lact W kind (fun r => .head (f r)) := fun r _ _ => by
  show ∃ tag k, act0 lact r (E.wBody lact W kind r (f r)) = .recv (some 0) tag k
  cases f r <;> exact ⟨_, _, rfl⟩

omit [AddCommMonoid T] in
theorem good_order {o : Order} {M : Pg T O D SL VL} {w w' : Nat → Pg T O D SL VL}
    (hw : ∀ r, 1 ≤ r → r ≤ W → ∃ k, pact lact (E.wBody lact W kind) r (w r) = .recv (some 0) (some 0) k ∧ k 0 0 (.order o) = w' r)
    (hg : GoodE E lact W kind Q M w') : GoodE E lact W kind Q (Eng.order W o M) w := good_bcast hw hg

/-- A product. -/
theorem good_mul (hA : E.Laws A lact W) (hW : 1 ≤ W) {e0 e1 e2 e3 st : T} {k : T → O → Pg T O D SL VL} {w : Nat → Pg T O D SL VL}
    (hw : Waits E lact W kind w) (hg : GoodE E lact W kind Q (k (A.mul e0 e1 e2 e3 st) (A.ov e0 e1 e2 e3 st)) w) :
    GoodE E lact W kind Q (E.mMul W e0 st k) (fun r => E.wMul W r e0 e1 e2 e3 (w r)) := by
  have hl := hA.sortMul (E.deg0 e0) (E.sect0 e0)
  refine good_bcast (w' := fun r => wrapF (mulFarm (E.sect0 e0) W []) (E.mulPart e0 e1 e2 e3 st) (E.ovPart e0 e1 e2 e3 st) (fun _ _ => w r)
    ((mulFarm (E.sect0 e0) W []).start0 r)) (fun r _ _ => ⟨_, rfl, rfl⟩) ?_
  refine good_farm (G := mulFarm (E.sect0 e0) W []) (f := E.mulPart e0 e1 e2 e3 st) (o := E.ovPart e0 e1 e2 e3 st) (W := W) (mulFarm_wf hW hl) rfl ⟨rfl, rfl, rfl, rfl, rfl, rfl, rfl, rfl, rfl, rfl, rfl⟩ (cw := fun r _ _ => w r) (fun g ov h => ?_) hw hg
  obtain ⟨h1, h2⟩ := mul_res hl h
  simp only [List.sum_append, h1, h2, List.sum_replicate, nsmul_zero, add_zero, hA.mul, hA.ov]

theorem good_grow {n last : Nat} {deg : Nat → Nat} (hA : E.Laws A lact W) (hW : 1 ≤ W) (hlast : n ≤ last) {f : Nat → T} {k : T → Pg T O D SL VL} {w : Nat → Pg T O D SL VL}
    (hw : Waits E lact W kind w) (hg : GoodE E lact W kind Q (k (∑ t ∈ range n, f t)) w) :
    GoodE E lact W kind Q
      (wrapF (growFarm n W (E.sortGrow deg n W) last) (fun _ => 0) (fun _ => 0) (fun g _ => k (g.map Prod.snd).sum) ((growFarm n W (E.sortGrow deg n W) last).handAt 0))
      (fun r => wrapF (growFarm n W [] 0) f (fun _ => 0) (fun _ _ => w r) ((growFarm n W [] 0).start0 r)) := by
  have hl := hA.sortGrow deg n
  refine good_farm (G := growFarm n W [] 0) (f := f) (o := fun _ => 0) (W := W) (growFarm_wf hW hl hlast) rfl ⟨rfl, rfl, rfl, rfl, rfl, rfl, rfl, rfl, rfl, rfl, rfl⟩ (cw := fun r _ _ => w r) (fun g ov h => ?_) hw hg
  simp only [grow_res hl h]

theorem good_growL (hA : E.Laws A lact W) (hW : 1 ≤ W) {e m x : T} {k : T → Pg T O D SL VL} {w : Nat → Pg T O D SL VL}
    (hw : Waits E lact W kind w) (hg : GoodE E lact W kind Q (k (A.growL e m x)) w) :
    GoodE E lact W kind Q (E.mGrowL W x k) (fun r => E.wGrowL W r e m (w r)) := by
  refine good_bcast (w' := fun r => wrapF (growFarm (E.sect2 x) W [] 0) (E.growLPart e m x) (fun _ => 0) (fun _ _ => w r)
    ((growFarm (E.sect2 x) W [] 0).start0 r)) (fun r _ _ => ⟨_, rfl, rfl⟩) ?_
  refine good_grow hA hW (by omega) hw ?_
  rw [hA.growL]; exact hg

theorem good_growR (hA : E.Laws A lact W) (hW : 1 ≤ W) {e m x : T} {k : T → Pg T O D SL VL} {w : Nat → Pg T O D SL VL}
    (hw : Waits E lact W kind w) (hg : GoodE E lact W kind Q (k (A.growR e m x)) w) :
    GoodE E lact W kind Q (E.mGrowR W x k) (fun r => E.wGrowR W r e m (w r)) := by
  refine good_bcast (w' := fun r => wBarrier (wrapF (growFarm (E.sect0 x) W [] 0) (E.growRPart e m x) (fun _ => 0) (fun _ _ => w r)
    ((growFarm (E.sect0 x) W [] 0).start0 r))) (fun r _ _ => ⟨_, rfl, rfl⟩) ?_
  refine good_barrier (good_grow hA hW (by omega) hw ?_)
  rw [hA.growR]; exact hg

theorem good_expR (hA : E.Laws A lact W) (hW : 1 ≤ W) {e0 e1 e2 gs : T} {nz : O} {k : T → Pg T O D SL VL} {w : Nat → Pg T O D SL VL}
    (hw : Waits E lact W kind w) (hg : GoodE E lact W kind Q (k (A.expR e0 e1 e2 gs nz)) w) :
    GoodE E lact W kind Q (E.mExpR W e0 gs nz k) (fun r => E.wExpR W r e0 e1 e2 (w r)) := by
  refine good_bcast (w' := fun r => getReal fun nz => wrapF (growFarm (E.sect0 e0) W [] 0) (E.expRPart e0 e1 e2 gs nz) (fun _ => 0) (fun _ _ => w r)
    ((growFarm (E.sect0 e0) W [] 0).start0 r)) (fun r _ _ => ⟨_, rfl, rfl⟩) ?_
  refine good_bcast (w' := fun r => wrapF (growFarm (E.sect0 e0) W [] 0) (E.expRPart e0 e1 e2 gs nz) (fun _ => 0) (fun _ _ => w r)
    ((growFarm (E.sect0 e0) W [] 0).start0 r)) (fun r _ _ => ⟨_, rfl, rfl⟩) ?_
  refine good_grow hA hW (by omega) hw ?_
  rw [hA.expR]; exact hg

theorem good_expL (hA : E.Laws A lact W) (hW : 1 ≤ W) {e1 e2 e3 gs : T} {nz : O} {k : T → Pg T O D SL VL} {w : Nat → Pg T O D SL VL}
    (hw : Waits E lact W kind w) (hg : GoodE E lact W kind Q (k (A.expL e1 e2 e3 gs nz)) w) :
    GoodE E lact W kind Q (E.mExpL W e3 gs nz k) (fun r => E.wExpL W r e1 e2 e3 (w r)) := by
  refine good_bcast (w' := fun r => getReal fun nz => wrapF (growFarm (E.sect0 e3) W [] 0) (E.expLPart e1 e2 e3 gs nz) (fun _ => 0) (fun _ _ => w r)
    ((growFarm (E.sect0 e3) W [] 0).start0 r)) (fun r _ _ => ⟨_, rfl, rfl⟩) ?_
  refine good_bcast (w' := fun r => wrapF (growFarm (E.sect0 e3) W [] 0) (E.expLPart e1 e2 e3 gs nz) (fun _ => 0) (fun _ _ => w r)
    ((growFarm (E.sect0 e3) W [] 0).start0 r)) (fun r _ _ => ⟨_, rfl, rfl⟩) ?_
  refine good_grow hA hW (by omega) hw ?_
  rw [hA.expL]; exact hg

/-- The pointers of a worker during an update of the sites `l`, `l + 1`. -/
def busy (l : Nat) (e0 e3 : T) : Heap T := ⟨.live e0, .live e3, some l⟩

omit [AddCommMonoid T] [AddCommMonoid O] in
theorem eff_busy {l : Nat} {e0 e3 : T} (hl : l + 1 < E.N) : E.eff (busy l e0 e3) = some (e0, E.mpo l, E.mpo (l + 1), e3) := by
  simp [Eng.eff, busy, Cell.get, Eng.mpoAt, hl, show l < E.N by omega]

/-- The loop of Lanczos. -/
theorem good_loop (hA : E.Laws A lact W) (hW : 1 ≤ W) {l : Nat} {e0 e3 : T} (hl : l + 1 < E.N) {k : T → Pg T O D SL VL} (left : Nat) (s : L) (hleft : 1 ≤ left)
    (hg : GoodE E lact W kind Q (k (A.loop E e0 (E.mpo l) (E.mpo (l + 1)) e3 left s)) (fun _ => .head (.main (busy l e0 e3)))) :
    GoodE E lact W kind Q (E.mLoop W e0 k left s) (fun _ => .head (.lz (busy l e0 e3))) := by
  have hfin : ∀ x, GoodE E lact W kind Q (k x) (fun _ => .head (.main (busy l e0 e3))) →
      GoodE E lact W kind Q (Eng.order W .lanczosFinish (k x)) (fun _ => .head (.lz (busy l e0 e3))) := fun x hx =>
    good_order (w' := fun _ => .head (.main (busy l e0 e3))) (fun r _ _ => ⟨_, rfl, rfl⟩) hx
  induction left generalizing s with
  | zero => omega
  | succ left ih =>
    simp only [Full.loop] at hg
    simp only [Eng.mLoop]
    by_cases hz : E.lzZero s = true
    · rw [if_pos hz] at hg ⊢
      exact hfin _ hg
    · rw [if_neg hz] at hg ⊢
      refine good_order (w' := fun r => E.wMul W r e0 (E.mpo l) (E.mpo (l + 1)) e3 (.head (.lz (busy l e0 e3)))) (fun r _ _ => ⟨_, rfl, ?_⟩) ?_
      · simp only [eff_busy hl]
        rfl
      refine good_mul hA hW (waits_head _) ?_
      by_cases hs : E.lzStop (E.lzTake s (A.mul e0 (E.mpo l) (E.mpo (l + 1)) e3 (E.lzVec s)) (A.ov e0 (E.mpo l) (E.mpo (l + 1)) e3 (E.lzVec s))) = true
      · rw [if_pos hs] at hg
        simp only [hs, Bool.true_or, if_true]
        exact hfin _ hg
      · rw [if_neg hs] at hg
        cases left with
        | zero =>
          simp only [decide_true, Bool.or_true, if_true]
          exact hfin _ hg
        | succ left =>
          simp only [hs, Bool.false_or, Nat.succ_ne_zero, decide_false, Bool.false_eq_true, if_false]
          exact ih _ (by omega) hg

/-- Lanczos. -/
theorem good_lanczos (hA : E.Laws A lact W) (hW : 1 ≤ W) {l : Nat} {e0 e3 st : T} {p : P} {hp : Heap T} (hl : l + 1 < E.N) (hp0 : hp.clean) (hmax : 2 ≤ E.maxIter p)
    {k : T → Pg T O D SL VL}
    (hg : GoodE E lact W kind Q (k (A.lanczos E p e0 (E.mpo l) (E.mpo (l + 1)) e3 st)) (fun _ => .head (.main (busy l e0 e3)))) :
    GoodE E lact W kind Q (Eng.order W .lanczos (bcast W (.num l) (E.mLanczos W p e0 e3 st k))) (fun _ => .head (.main hp)) := by
  have hgone : (hp.e0.gone && hp.e3.gone) = true := by
    obtain ⟨h0, h3⟩ := hp0
    rcases hp with ⟨c0, c3, st⟩
    cases c0 <;> cases c3 <;> simp [Cell.gone] at h0 h3 ⊢
  refine good_order (w' := fun r => E.wMain lact W kind r hp .lanczos) (fun r _ _ => ⟨_, rfl, rfl⟩) ?_
  refine good_bcast (w' := fun r => getTen fun x0 => getTen fun x3 =>
    need (E.eff (busy l x0 x3)) fun (e0, e1, e2, e3) => E.wMul W r e0 e1 e2 e3 (.head (.lz (busy l x0 x3)))) (fun r _ _ => ⟨_, rfl, ?_⟩) ?_
  · simp only [hgone, if_true]
    rfl
  refine good_bcast (w' := fun r => getTen fun x3 =>
    need (E.eff (busy l e0 x3)) fun (e0', e1, e2, e3) => E.wMul W r e0' e1 e2 e3 (.head (.lz (busy l e0 x3)))) (fun r _ _ => ⟨_, rfl, rfl⟩) ?_
  refine good_bcast (w' := fun r => E.wMul W r e0 (E.mpo l) (E.mpo (l + 1)) e3 (.head (.lz (busy l e0 e3)))) (fun r _ _ => ⟨_, rfl, ?_⟩) ?_
  · simp only [eff_busy hl]
    rfl
  exact good_mul hA hW (waits_head _) (good_loop hA hW hl _ _ (by omega) hg)

/-- The end of an update. -/
theorem good_svd (hA : E.Laws A lact W) (hW : 1 ≤ W) {u : Eng.Upd P O} {d d0 : D} {gs : T}
    (hu : if u.right then u.site + 1 < E.N else 1 ≤ u.site ∧ u.site < E.N) {k : D → Pg T O D SL VL}
    (hl0 : ∀ i, E.lenv d i = E.lenv d0 i) (hr0 : ∀ i, E.renv d i = E.renv d0 i)
    (hg : ∀ hp : Heap T, hp.clean → GoodE E lact W kind Q (k (A.finish E u.right (Eng.lsite u) gs d)) (fun _ => .head (.main hp))) :
    GoodE E lact W kind Q (E.mSvd lact W u gs d k) (fun _ => .head (.main (busy (Eng.lsite u) (E.lenv d0 (Eng.lsite u)) (E.renv d0 (E.renvLen u))))) := by
  obtain ⟨right, i, par, noise⟩ := u
  refine good_order (w' := fun r => wrapL lact r (fun _ => .head (.main _)) E.svdWk) (fun r _ _ => ⟨_, rfl, rfl⟩) ?_
  cases right with
  | true =>
    simp only [if_true] at hu
    refine good_lib (hA.svd d i gs) (M := Eng.order W .growLeft (E.mGrowL W (E.mps (E.setSvd d true i gs (A.svd d i gs)) i) fun x => k (E.putL (E.setSvd d true i gs (A.svd d i gs)) (i + 1) x)))
      (cw := fun r => .head (.main (busy i (E.lenv d0 i) (E.renv d0 (E.N - (i + 2))))))
      (fun s hs => ?_) (waits_head _) ?_
    · simp only [Eng.lsite, if_true, hs]
    refine good_order (w' := fun r => E.wGrowL W r (E.lenv d0 i) (E.mpo i) (.head (.main ⟨.freed, .freed, some i⟩))) (fun r _ _ => ⟨_, rfl, ?_⟩) ?_
    · simp only [Eng.wMain, busy, Cell.del, Cell.get, need, Eng.mpoAt, show i < E.N by omega, if_true]
    refine good_growL hA hW (waits_head _) ?_
    have := hg ⟨.freed, .freed, some i⟩ ⟨fun x => by simp, fun x => by simp⟩
    simp only [Full.finish, Eng.lsite, if_true, hA.lenv_svd, hl0] at this
    exact this
  | false =>
    simp only [Bool.false_eq_true, if_false] at hu
    obtain ⟨h1, h2⟩ := hu
    obtain ⟨l, rfl⟩ : ∃ l, i = l + 1 := ⟨i - 1, by omega⟩
    have e1 : E.N - (l + 1) - 1 = E.N - (l + 2) := by omega
    have e2 : E.N - (l + 2) + 1 = E.N - (l + 1) := by omega
    have ers : E.renvLen (⟨false, l + 1, par, noise⟩ : Eng.Upd P O) = E.N - (l + 2) := e1
    refine good_lib (hA.svd d l gs) (M := Eng.order W .growRight (E.mGrowR W (E.mps (E.setSvd d false l gs (A.svd d l gs)) (l + 1)) fun x => k (E.putR (E.setSvd d false l gs (A.svd d l gs)) (E.N - (l + 1)) x)))
      (cw := fun r => .head (.main (busy l (E.lenv d0 l) (E.renv d0 (E.N - (l + 2))))))
      (fun s hs => ?_) (waits_head _) ?_
    · simp only [Eng.lsite, Bool.false_eq_true, if_false, Nat.add_sub_cancel, hs, ers, e2]
    refine good_order (w' := fun r => E.wGrowR W r (E.renv d0 (E.N - (l + 2))) (E.mpo (l + 1)) (.head (.main ⟨.freed, .freed, some l⟩))) (fun r _ _ => ⟨_, rfl, ?_⟩) ?_
    · simp only [Eng.wMain, busy, Cell.del, Cell.get, need, Eng.mpoAt, h2, if_true]
    refine good_growR hA hW (waits_head _) ?_
    have := hg ⟨.freed, .freed, some l⟩ ⟨fun x => by simp, fun x => by simp⟩
    simp only [Full.finish, Eng.lsite, Bool.false_eq_true, if_false, Nat.add_sub_cancel, hA.renv_svd, hr0] at this
    exact this

/-- An update. -/
theorem good_update (hA : E.Laws A lact W) (hW : 1 ≤ W) {u : Eng.Upd P O} {d : D} {hp : Heap T} (hp0 : hp.clean)
    (hu : (Eng.Job.upd u : Eng.Job D P O).ok E kind) {k : D → Pg T O D SL VL}
    (hg : ∀ hp : Heap T, hp.clean → GoodE E lact W kind Q (k (A.job E (.upd u) d)) (fun _ => .head (.main hp))) :
    GoodE E lact W kind Q (E.mUpdate lact W u d k) (fun _ => .head (.main hp)) := by
  obtain ⟨hs, hmax, hnoise⟩ := hu
  have hl : Eng.lsite u + 1 < E.N := by
    unfold Eng.lsite
    split at hs <;> rename_i h
    · rw [if_pos h]; exact hs
    · rw [if_neg h]; omega
  have hre : E.renvLen u = E.N - (Eng.lsite u + 2) := by
    unfold Eng.renvLen Eng.lsite
    split at hs <;> rename_i h
    · rw [if_pos h, if_pos h]
    · rw [if_neg h, if_neg h]; omega
  have hsite : u.site = if u.right then Eng.lsite u else Eng.lsite u + 1 := by
    unfold Eng.lsite
    split at hs <;> rename_i h
    · rw [if_pos h, if_pos h]
    · rw [if_neg h, if_neg h]; omega
  have hjob : A.job E (.upd u) d = A.update E u.right (Eng.lsite u) u.par u.noise d := rfl
  rw [hjob] at hg
  refine good_lanczos hA hW hl hp0 hmax ?_
  cases hn : u.noise with
  | none =>
    rw [hn] at hg
    refine good_svd hA hW hs (fun _ => rfl) (fun _ => rfl) fun hp h => ?_
    have := hg hp h
    simp only [Full.update] at this
    rw [hre]
    exact this
  | some nz =>
    have hk : kind = .vmps := by
      cases kind with
      | vmps => rfl
      | tdvp => rw [hnoise rfl] at hn; cases hn
    subst hk
    rw [hn] at hg
    simp only
    simp only [Full.update, ← hsite, ← hre] at hg
    by_cases hex : E.needExp d u.right u.site nz = true
    · simp only [hex, if_true] at hg ⊢
      by_cases hr : u.right = true
      · simp only [hr, if_true]
        refine good_order (w' := fun r => E.wExpR W r _ (E.mpo (Eng.lsite u)) (E.mpo (Eng.lsite u + 1)) (.head (.main (busy _ _ _)))) (fun r _ _ => ⟨_, rfl, ?_⟩)
          (good_expR hA hW (waits_head _) (good_svd hA hW hs (hA.lenv_exp _ _ _ _ _) (hA.renv_exp _ _ _ _ _) fun hp h => ?_))
        · simp only [Eng.wMain, if_true, eff_busy hl]
          rfl
        · have := hg hp h
          simp only [hr, if_true] at this ⊢
          exact this
      · simp only [hr, Bool.false_eq_true, if_false]
        rw [Bool.not_eq_true] at hr
        refine good_order (w' := fun r => E.wExpL W r (E.mpo (Eng.lsite u)) (E.mpo (Eng.lsite u + 1)) _ (.head (.main (busy _ _ _)))) (fun r _ _ => ⟨_, rfl, ?_⟩)
          (good_expL hA hW (waits_head _) (good_svd hA hW hs (hA.lenv_exp _ _ _ _ _) (hA.renv_exp _ _ _ _ _) fun hp h => ?_))
        · simp only [Eng.wMain, if_true, eff_busy hl]
          rfl
        · have := hg hp h
          simp only [hr, Bool.false_eq_true, if_false] at this ⊢
          exact this
    · simp only [hex, Bool.false_eq_true, if_false] at hg ⊢
      exact good_svd hA hW hs (fun _ => rfl) (fun _ => rfl) fun hp h => hg hp h

/-- The initial environments. -/
theorem good_envs (hA : E.Laws A lact W) (hW : 1 ≤ W) {k : D → Pg T O D SL VL} {hp : Heap T} (n i : Nat) (d : D)
    (hg : GoodE E lact W kind Q (k (A.envs E n i d)) (fun _ => .head (.main hp))) :
    GoodE E lact W kind Q (E.mEnvs W k n i d) (fun _ => .head (.init hp)) := by
  induction n generalizing i d with
  | zero => exact good_order (w' := fun _ => .head (.main hp)) (fun r _ _ => ⟨_, rfl, rfl⟩) hg
  | succ n ih =>
    refine good_order (w' := fun r => getTen fun m => getTen fun renv => E.wGrowR W r renv m (.head (.init hp))) (fun r _ _ => ⟨_, rfl, rfl⟩) ?_
    refine good_bcast (w' := fun r => getTen fun renv => E.wGrowR W r renv (E.mpo (E.N - i)) (.head (.init hp))) (fun r _ _ => ⟨_, rfl, rfl⟩) ?_
    refine good_bcast (w' := fun r => E.wGrowR W r (E.envE (E.loadE d i) (i - 1)) (E.mpo (E.N - i)) (.head (.init hp))) (fun r _ _ => ⟨_, rfl, rfl⟩) ?_
    exact good_growR hA hW (waits_head _) (ih _ _ hg)

/-- What the ranks leave behind. -/
def Done (W : Nat) (d : D) (ρ : Nat → Pg T O D SL VL) : Prop :=
  ρ 0 = .halt (.master d) ∧ ∀ r, 1 ≤ r → r ≤ W → ∃ hp : Heap T, hp.clean ∧ ρ r = .halt (.worker hp)

theorem good_jobs (hA : E.Laws A lact W) (hW : 1 ≤ W) (js : List (Eng.Job D P O)) (hjs : ∀ j ∈ js, j.ok E kind) (d : D) (hp : Heap T) (hp0 : hp.clean) :
    GoodE E lact W kind (Done W (A.jobs E js d)) (E.mJobs lact W js d) (fun _ => .head (.main hp)) := by
  induction js generalizing d hp with
  | nil =>
    refine good_order (w' := fun _ => .halt (.worker hp)) (fun r _ _ => ⟨_, rfl, rfl⟩) (good_end rfl (fun _ _ _ => rfl) ⟨rfl, fun r r1 r2 => ⟨hp, hp0, ranks_pos r1 r2⟩⟩)
  | cons j js ih =>
    have ih := fun d hp h => ih (fun j hj => hjs j (List.mem_cons_of_mem _ hj)) d hp h
    have hj := hjs j List.mem_cons_self
    cases j with
    | loc f => exact ih _ _ hp0
    | upd u => exact good_update hA hW hp0 hj fun hp h => ih _ _ h
    | envs n =>
      refine good_order (w' := fun _ => .head (.init hp)) (fun r _ _ => ⟨_, rfl, ?_⟩) (good_envs hA hW n 1 d (ih _ _ hp0))
      simp only [Eng.wMain, hj.1, if_true]

theorem good_program (hA : E.Laws A lact W) (hW : 1 ≤ W) (js : List (Eng.Job D P O)) (hjs : ∀ j ∈ js, j.ok E kind) (d : D) :
    GoodE E lact W kind (Done W (A.jobs E js d)) (E.mStart lact W js d) (fun _ => Eng.wStart) := by
  refine good_order (w' := fun r => .send 0 (2 * r + 1) (.num r) Eng.wStart) (fun r _ _ => ⟨_, rfl, rfl⟩) ?_
  refine good_recvEach (w' := fun _ => Eng.wStart) (fun r _ _ => ⟨.num r, rfl, by simp [Eng.isNum]⟩) ?_
  exact good_jobs hA hW js hjs d _ ⟨fun x => by simp, fun x => by simp⟩

end
end Verif.Mpi
