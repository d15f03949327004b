import Verif.Disk.DmrgInit
import Verif.Disk.DmrgLoop
import Verif.Props.Boundary
/-
Properties C26 (block operator files of the DMRG executor), C27 (emergency stop) and C28 (soft stop).
-/
namespace Verif.Props
open Verif.Disk

variable {T O : Type}

/-- **Specification**: if no block operator file in the range of the new run is missing, so that they will be taken
over, they are those of the MPS. -/
def OpsReusable (A : Alg T (List O)) (w : Nat → Nat) (N lb rb : Nat) (ψ : Nat → T) (d : CDsk T O) : Prop :=
  needOps w N lb rb d = false → ∀ k, N < k + rb → k + lb + 2 ≤ N → Holds (d.r k) (A.renv N ψ k)

/-- **Specification**: no component file of a left group in the interior of the range is left. -/
def NoLeft (w : Nat → Nat) (lb rb : Nat) (d : CDsk T O) : Prop := ∀ k c, lb < k → k < rb → c < w k → d.l k c = .gone

section
variable {A : Alg T (List O)} (H : A.Legs) {w : Nat → Nat} {G P : Gauge T} (L : G.Laws A) (bl br : Nat → Bool) {N : Nat}
  (D : A.Dims w N) (hN : 3 ≤ N) (clk : Nat) {ψ : Nat → T} {d : CDsk T O}
  (hm : COnDisk N ψ d) (hr : OpsReusable A w N (lbOf bl N) (rbOf br N) ψ d)

include L D hN hm hr in
/-- The initialisation, and the loading of the first tensor. -/
theorem dmrg_init_ok : ∃ cs fl fr, (crun w N (dmrgInit A G bl br w N d) ⟨Mem.blank clk, d⟩ >>= crun w N [.ldM (lbOf bl N + 1)]) = .ok cs ∧
    Lift w N (w (lbOf bl N)) (StartD A N (lbOf bl N) (rbOf br N) fl fr (gauged G N (lbOf bl N) (rbOf br N) ψ, clk)) cs := by
  obtain ⟨b1, b2⟩ := bounds_ok bl br hN
  obtain ⟨b, hb⟩ : ∃ b, b = needOps w N (lbOf bl N) (rbOf br N) d := ⟨_, rfl⟩
  unfold dmrgInit
  unfold OpsReusable at hr
  rw [← hb] at hr ⊢
  have hren : ∀ k, N < k + rbOf br N → k + lbOf bl N + 2 ≤ N →
      A.renv N (gauged G N (lbOf bl N) (rbOf br N) ψ) k = A.renv N ψ k := fun k g1 g2 => gauged_renv L b1 b2 ψ g1 g2
  have hck := fun (s : Sys T (List O)) (h1 : OnDisk N ψ s.dsk) (h2 : s.mem.m = fun _ => none) => checkBoundary_ok (n := N) (E := List O) (s := s) G bl br hN h1 h2
  generalize hφ : gauged G N (lbOf bl N) (rbOf br N) ψ = φ at *
  have ty0 := checkBoundary_ty (O := O) (w := w) (N := N) G bl br (a := 0)
  generalize lbOf bl N = lb at *
  generalize rbOf br N = rb at *
  -- the directory with whole groups
  have h0 : Lift w N 0 (fun s => OnDisk N ψ s.dsk ∧ s.mem = Mem.blank clk ∧
      (b = false → ∀ k, N < k + rb → k + lb + 2 ≤ N → s.dsk.r k = .whole (A.renv N ψ k))) (⟨Mem.blank clk, d⟩ : CSys T O) := by
    refine ⟨⟨Mem.blank clk, ⟨d.m, fun _ => .junk, fun k => if b = false ∧ N < k + rb ∧ k + lb + 2 ≤ N then .whole (A.renv N ψ k) else .junk⟩⟩,
      ⟨hm, rfl, fun h k g1 g2 => by simp only []; rw [if_pos ⟨h, g1, g2⟩]⟩, rfl, ⟨rfl, fun _ => trivial, fun k => ?_⟩, ?_⟩
    · simp only []
      split
      · rename_i h; exact ⟨renv_length D ψ k (by omega), hr h.1 k h.2.1 h.2.2⟩
      · trivial
    · exact ⟨fun k e h => by simp [Mem.blank] at h, fun k e h => by simp [Mem.blank] at h, fun e h => by simp [Mem.blank] at h⟩
  -- types
  have ty : Ty w N 0 ((checkBoundary G bl br N ++ ((if b then initOps A N lb else []) ++ boundOps A N lb rb))) (w lb) := by
    refine ty0.append ?_
    cases b with
    | true => exact (initOps_ty D (by omega)).append (boundOps_ty D b2)
    | false => exact Ty.append .nil (boundOps_ty D b2)
  have hdo : ∀ s : Sys T (List O), (OnDisk N ψ s.dsk ∧ s.mem = Mem.blank clk ∧
      (b = false → ∀ k, N < k + rb → k + lb + 2 ≤ N → s.dsk.r k = .whole (A.renv N ψ k))) →
      Does N N ((checkBoundary G bl br N ++ ((if b then initOps A N lb else []) ++ boundOps A N lb rb))) s
      (fun s => OnDisk N φ s.dsk ∧ s.mem.m = (fun _ => none) ∧ s.mem.l = (fun _ => none) ∧
      s.mem.r = (fun _ => none) ∧ s.mem.clk = clk ∧ s.dsk.l lb = .whole (A.lenv φ lb) ∧
      ∀ k, N ≤ k + 1 + rb → k + lb + 2 ≤ N → s.dsk.r k = .whole (A.renv N φ k)) := by
    rintro s ⟨p1, p2, p3⟩
    refine Does.append (hck s p1 (by rw [p2]; rfl)) fun s1 ⟨f1, f2, f3, f4⟩ => ?_
    refine Does.append (Q := fun s2 => s2.mem.m = (fun _ => none) ∧ s2.mem.l = (fun _ => none) ∧ s2.mem.r = (fun _ => none) ∧
      s2.mem.clk = clk ∧ OnDisk N φ s2.dsk ∧ ∀ k, N < k + rb → k + lb + 2 ≤ N → s2.dsk.r k = .whole (A.renv N φ k)) ?_ ?_
    · cases b with
      | true =>
        rw [if_pos rfl]
        refine (initOps_ok (A := A) (lb := lb) (ψ := φ) (by omega) f4 (by rw [f1, p2]; rfl)).mono fun s2 ⟨g1, g2, g3, g4, g5⟩ =>
          ⟨g1, by rw [g2, f1, p2]; rfl, by rw [g3, f1, p2]; rfl, by rw [g4, f1, p2]; rfl, by rw [g5]; exact f4, fun k k1 k2 => ?_⟩
        rw [g5]; simp only []; rw [if_pos k2]
      | false =>
        refine .nil ⟨by rw [f1, p2]; rfl, by rw [f1, p2]; rfl, by rw [f1, p2]; rfl, by rw [f1, p2]; rfl, f4, fun k k1 k2 => ?_⟩
        rw [f3, p3 rfl k k1 k2, hren k k1 k2]
    · rintro s2 ⟨g1, g2, g3, g4, g5, g6⟩
      refine (boundOps_ok (A := A) (lb := lb) (rb := rb) (ψ := φ) (by omega) b2 g5 g1).mono fun s3 ⟨k1, k2, k3, k4, k5⟩ =>
        ⟨by rw [k5]; exact g5, k1, k2.trans g2, k3.trans g3, k4.trans g4, by rw [k5]; simp, fun j j1 j2 => ?_⟩
      rw [k5]
      simp only []
      by_cases h : N ≤ j + rb + 1 ∧ j + rb ≤ N
      · rw [if_pos h]
      · rw [if_neg h]; exact g6 j (by omega) j2
  obtain ⟨c1, e1, l1⟩ := h0.step (Q := fun s => OnDisk N φ s.dsk ∧ s.mem.m = (fun _ => none) ∧ s.mem.l = (fun _ => none) ∧
      s.mem.r = (fun _ => none) ∧ s.mem.clk = clk ∧ s.dsk.l lb = .whole (A.lenv φ lb) ∧
      ∀ k, N ≤ k + 1 + rb → k + lb + 2 ≤ N → s.dsk.r k = .whole (A.renv N φ k)) ty hdo
  obtain ⟨c2, e2, s, q, em, rl, g⟩ := l1.step (Q := fun s => ∃ s0 : Sys T (List O), (OnDisk N φ s0.dsk ∧ s0.mem.m = (fun _ => none) ∧
    s0.mem.l = (fun _ => none) ∧ s0.mem.r = (fun _ => none) ∧ s0.mem.clk = clk ∧ s0.dsk.l lb = .whole (A.lenv φ lb) ∧
    ∀ k, N ≤ k + 1 + rb → k + lb + 2 ≤ N → s0.dsk.r k = .whole (A.renv N φ k)) ∧
    s = ⟨{ s0.mem with m := Function.update s0.mem.m (lb + 1) (some (φ (lb + 1))) }, s0.dsk⟩) (ops := [.ldM (lb + 1)])
    (.op rfl .nil) (fun s hs => .ldM (by omega) (hs.1 (lb + 1) (by omega)) (.nil ⟨s, hs, rfl⟩))
  obtain ⟨s0, ⟨q1, q2, q3, q4, q5, q6, q7⟩, rfl⟩ := q
  refine ⟨c2, s0.dsk.l, s0.dsk.r, by rw [e1]; exact e2, ⟨{ s0.mem with m := Function.update s0.mem.m (lb + 1) (some (φ (lb + 1))) }, s0.dsk⟩,
    ⟨?_, q3, fun j _ => by simp only [q4], q5, ⟨fun j hj _ => q1 j hj,
      fun j hj => ⟨_, q1 j hj, fun h => by rw [h], fun h => by rw [h]⟩, fun j => ?_, fun j => ?_⟩⟩, em, rl, g⟩
  · simp only [q2]
    funext j
    by_cases h : j = lb + 1
    · subst h; rw [Function.update_self, wnd_in (by omega) (by omega)]
    · rw [Function.update_of_ne h, wnd_out (by omega)]
  · by_cases h : (geoD N lb rb).lb ≤ j ∧ j ≤ lb
    · rw [if_pos h]
      obtain rfl : j = lb := by simp only [geoD] at h; omega
      exact q6
    · rw [if_neg h]
  · by_cases h : (geoD N lb rb).N ≤ j + 1 + (geoD N lb rb).rb ∧ j + (lb + 2) ≤ (geoD N lb rb).N
    · rw [if_pos h]
      simp only [geoD] at h ⊢
      exact q7 j h.1 (by omega)
    · rw [if_neg h, if_neg (by simp only [geoD] at h ⊢; omega)]

theorem centred_at (P : Gauge T) (lb : Nat) (ψ : Nat → T) {j : Nat} (h : lb + 2 ≤ j) : centred P lb ψ j = ψ j := by
  have : ∀ k (φ : Nat → T), k < j → (List.range' 1 k).reverse.foldl (gaugeR P) φ j = φ j := by
    intro k
    induction k with
    | zero => intro φ _; rfl
    | succ k ih =>
      intro φ hk
      rw [List.range'_1_concat, List.reverse_append]
      simp only [List.reverse_cons, List.reverse_nil, List.nil_append, List.cons_append, List.foldl_cons]
      rw [ih _ (by omega), gaugeR_at P φ (by omega) (by omega)]
  exact this (lb + 1) ψ (by omega)

theorem rel_holds {x : File (List O)} {es : List O} {n : Nat} {f : Nat → File O} (h : RelF n x f) (e : x = .whole es) : Holds f es := by
  subst e; exact h.2

include H L D hN hm hr in
/-- **C28** (soft stop; with `n = k` and no signal also **C26**). No emergency is seen, and the loop ends after `n` of
at most `k` sweeps, because all `k` are done or because the stop flag is seen after the `n`-th and was not seen after
an earlier one. Then all reads find complete files with the right contents, and afterwards the tensor files hold
exactly the result of `n` sweeps with the centre moved to site 0. The right block operators are complete and are
those of the MPS on disk, and no left block operator is left in the interior of the range. -/
theorem C28_soft_stop (n k : Nat) {sg : Sig} (hs : sg.OK) (hn : n ≤ k) (hem : sg.fin.em = false)
    (hno : ∀ q, q + 1 < n → (sg.look q (2 * (rbOf br N - 1 - lbOf bl N))).stop = false)
    (hend : n = k ∨ 0 < n ∧ (sg.look (n - 1) (2 * (rbOf br N - 1 - lbOf bl N))).stop = true) :
    ∃ s', dmrg A w N G P bl br k sg ⟨Mem.blank clk, d⟩ = .ok s' ∧
      COnDisk N (centred P (lbOf bl N)
        (optSweeps A N (lbOf bl N) (rbOf br N) n (gauged G N (lbOf bl N) (rbOf br N) ψ, clk)).1) s'.dsk ∧
      (∀ j, N ≤ j + 1 + rbOf br N → j + lbOf bl N + 2 ≤ N → Holds (s'.dsk.r j) (A.renv N (centred P (lbOf bl N)
        (optSweeps A N (lbOf bl N) (rbOf br N) n (gauged G N (lbOf bl N) (rbOf br N) ψ, clk)).1) j)) ∧
      Holds (s'.dsk.l (lbOf bl N)) (A.lenv
        (optSweeps A N (lbOf bl N) (rbOf br N) n (gauged G N (lbOf bl N) (rbOf br N) ψ, clk)).1 (lbOf bl N)) ∧
      (0 < n → NoLeft w (lbOf bl N) (rbOf br N) s'.dsk) ∧ ∃ t, s'.mem.m 0 = some t := by
  obtain ⟨b1, b2⟩ := bounds_ok bl br hN
  obtain ⟨c1, fl, fr, e1, l1⟩ := dmrg_init_ok (G := G) L bl br D hN clk hm hr
  have noem : ∀ q p, (sg.look q p).em = false := fun q p => by
    by_contra hc
    rw [Bool.not_eq_false] at hc
    rw [hs.finEm q p hc] at hem
    simp at hem
  obtain ⟨c2, e2, l2⟩ := dSweeps_run H D b1 b2 (sg := sg) n k 0 hn (fun x p _ _ => noem _ _)
    (fun x hx => by rw [Nat.zero_add]; exact ⟨hno x hx, noem _ _⟩)
    (hend.imp id fun h => ⟨h.1, Or.inl (by rw [Nat.zero_add]; exact h.2)⟩) l1
  generalize optSweeps A N (lbOf bl N) (rbOf br N) n (gauged G N (lbOf bl N) (rbOf br N) ψ, clk) = φ at *
  unfold dmrg dMain
  generalize lbOf bl N = lb at *
  generalize rbOf br N = rb at *
  obtain ⟨c3, e3, s3, ⟨q1, ⟨t, q4⟩, s2, hst, q2, q3⟩, em3, rl, -⟩ := l2.step (Q := fun s => OnDisk N (centred P lb φ.1) s.dsk ∧ (∃ t, s.mem.m 0 = some t) ∧
      ∃ s2, StartD A N lb rb (if n = 0 then fl else trimW (geoD N lb rb) fl) fr φ s2 ∧ s.dsk.l = s2.dsk.l ∧ s.dsk.r = s2.dsk.r)
      (post_ty P) (fun s hs => by
    refine (post_ok (N := N) P (φ := φ.1) (lb := lb) (s := s) (by omega) ?_ fun j hj hj' => hs.d.m j hj (by omega)).mono fun s' h =>
      ⟨h.1, h.2.2.2.2, s, hs, h.2.1, h.2.2.1⟩
    rw [hs.m]; exact wnd_in (by omega) (by omega))
  refine ⟨c3, ?_, fun j hj => by rw [rl.m]; exact q1 j hj, fun j j1 j2 => ?_, ?_, fun hn0 j c j1 j2 j3 => ?_, t, by rw [em3]; exact q4⟩
  · simp only [bind, Except.bind] at e1 ⊢
    split at e1
    · simp at e1
    · rename_i v hv
      rw [e1]
      simp only [e2, hem, Bool.false_eq_true, if_false]
      exact e3
  · have hk := hst.d.r j
    rw [if_pos (by simp only [geoD]; omega)] at hk
    rw [renv_congr A (ψ' := φ.1) (by rw [centred_at P lb φ.1 (by omega)]) j
      (fun i hi hi' => centred_at P lb φ.1 (by omega)) (by omega)]
    refine rel_holds (rl.r j) ?_
    rw [q3]; exact hk
  · have hk := hst.d.l lb
    rw [if_pos (by simp only [geoD]; omega)] at hk
    refine rel_holds (rl.l lb) ?_
    rw [q2]; exact hk
  · have hk := hst.d.l j
    rw [if_neg (by omega), if_neg (by omega), trimW, if_pos (by simp only [geoD]; omega)] at hk
    have hj := rl.l j
    rw [q2, hk] at hj
    exact hj c j3

/-- The flags of a run without signals. -/
def quiet : Sig := ⟨fun _ _ => ⟨false, false⟩, ⟨false, false⟩⟩

theorem quiet_ok : quiet.OK := ⟨fun _ _ _ _ _ h => h, fun _ _ _ _ _ h => h, fun _ _ h => h, fun _ _ h => h, fun _ _ h => h, fun h => h⟩

include H L D hN hm hr in
/-- **C26**. A run without signals. -/
theorem C26_run (k : Nat) :
    ∃ s', dmrg A w N G P bl br k quiet ⟨Mem.blank clk, d⟩ = .ok s' ∧
      COnDisk N (centred P (lbOf bl N)
        (optSweeps A N (lbOf bl N) (rbOf br N) k (gauged G N (lbOf bl N) (rbOf br N) ψ, clk)).1) s'.dsk ∧
      (∀ j, N ≤ j + 1 + rbOf br N → j + lbOf bl N + 2 ≤ N → Holds (s'.dsk.r j) (A.renv N (centred P (lbOf bl N)
        (optSweeps A N (lbOf bl N) (rbOf br N) k (gauged G N (lbOf bl N) (rbOf br N) ψ, clk)).1) j)) ∧
      Holds (s'.dsk.l (lbOf bl N)) (A.lenv
        (optSweeps A N (lbOf bl N) (rbOf br N) k (gauged G N (lbOf bl N) (rbOf br N) ψ, clk)).1 (lbOf bl N)) ∧
      (0 < k → NoLeft w (lbOf bl N) (rbOf br N) s'.dsk) ∧ ∃ t, s'.mem.m 0 = some t :=
  C28_soft_stop H L bl br D hN clk hm hr k k quiet_ok (Nat.le_refl k) rfl (fun _ _ => rfl) (Or.inl rfl)

/-- A group that is complete or missing is complete if no file is missing. -/
theorem reusable_of {A : Alg T (List O)} {w : Nat → Nat} {N lb rb lb' rb' : Nat} {φ : Nat → T} {d : CDsk T O} (D : A.Dims w N)
    (h1 : lb ≤ lb') (h2 : rb' ≤ rb) (h3 : rb' < N)
    (h : ∀ k, N ≤ k + 1 + rb → k + lb + 2 ≤ N → (∀ c, c < w (N - k) → d.r k c = .gone) ∨ Holds (d.r k) (A.renv N φ k)) :
    OpsReusable A w N lb' rb' φ d := by
  intro hn k k1 k2
  rcases h k (by omega) (by omega) with hg | hh
  · unfold needOps at hn
    rw [List.any_eq_false] at hn
    have := hn k (by rw [List.mem_range'_1]; omega)
    rw [Bool.not_eq_true, List.any_eq_false] at this
    intro c hc
    rw [renv_length D φ k (by omega)] at hc
    have := this c (by rw [List.mem_range]; exact hc)
    rw [hg c hc] at this
    simp [File.present] at this
  · exact hh

include H L D hN hm hr in
/-- **C27** (emergency stop inside a sweep). The emergency flag is first seen at the look after update number `p0` of
sweep `q0`. Then the run ends, without post-processing, and every tensor file holds the tensor after exactly the
updates done so far. Of the right block operators in the range each group is missing or is that of the MPS on disk. -/
theorem C27_emergency (k : Nat) {sg : Sig} (hs : sg.OK) {q0 p0 : Nat} (hq : q0 < k) (hp : p0 < 2 * (rbOf br N - 1 - lbOf bl N))
    (hst : ∀ q, q < q0 → (sg.look q (2 * (rbOf br N - 1 - lbOf bl N))).stop = false)
    (hno : ∀ q p, (q < q0 ∨ q = q0 ∧ p < p0) → (sg.look q p).em = false) (hem : (sg.look q0 p0).em = true) :
    ∃ s', dmrg A w N G P bl br k sg ⟨Mem.blank clk, d⟩ = .ok s' ∧
      COnDisk N (optFirst A N (lbOf bl N) (rbOf br N) (p0 + 1)
        (optSweeps A N (lbOf bl N) (rbOf br N) q0 (gauged G N (lbOf bl N) (rbOf br N) ψ, clk))).1 s'.dsk ∧
      (∀ j, N ≤ j + 1 + rbOf br N → j + lbOf bl N + 2 ≤ N → (∀ c, c < w (N - j) → s'.dsk.r j c = .gone) ∨
        Holds (s'.dsk.r j) (A.renv N (optFirst A N (lbOf bl N) (rbOf br N) (p0 + 1)
          (optSweeps A N (lbOf bl N) (rbOf br N) q0 (gauged G N (lbOf bl N) (rbOf br N) ψ, clk))).1 j)) := by
  obtain ⟨b1, b2⟩ := bounds_ok bl br hN
  obtain ⟨c1, fl, fr, e1, l1⟩ := dmrg_init_ok (G := G) L bl br D hN clk hm hr
  obtain ⟨c2, e2, s, he, em, rl, g⟩ := dSweeps_em H D b1 b2 hs hp q0 k 0 hq
    (fun x hx => by rw [Nat.zero_add]; exact ⟨hst x hx, hno _ _ (Or.inl hx)⟩)
    (fun p hp => hno _ _ (Or.inr ⟨by omega, hp⟩)) (by rw [Nat.zero_add]; exact hem) l1
  refine ⟨c2, ?_, fun j hj => by rw [rl.m]; exact he.m j hj, fun j j1 j2 => ?_⟩
  · unfold dmrg dMain
    simp only [bind, Except.bind] at e1 ⊢
    split at e1
    · simp at e1
    · rename_i v hv
      rw [e1]
      simp only [e2, hs.finEm _ _ hem, if_true, pure, Except.pure]
  · have hj := rl.r j
    rcases he.r j j1 j2 with h | h
    · rw [h] at hj; exact Or.inl hj
    · exact Or.inr (rel_holds hj h)

include H L D hN hm hr in
/-- **C27** (resuming). After an emergency stop inside a sweep, a new run in the same directories, with any number of
sweeps, whose range is not larger, takes over or regenerates block operators as needed and performs its sweeps exactly
on the MPS on disk. -/
theorem C27_resume (k : Nat) {sg : Sig} (hs : sg.OK) {q0 p0 : Nat} (hq : q0 < k) (hp : p0 < 2 * (rbOf br N - 1 - lbOf bl N))
    (hst : ∀ q, q < q0 → (sg.look q (2 * (rbOf br N - 1 - lbOf bl N))).stop = false)
    (hno : ∀ q p, (q < q0 ∨ q = q0 ∧ p < p0) → (sg.look q p).em = false) (hem : (sg.look q0 p0).em = true)
    {bl' br' : Nat → Bool} (n1 : lbOf bl N ≤ lbOf bl' N) (n2 : rbOf br' N ≤ rbOf br N) (k' clk' : Nat) :
    ∃ s' s'', dmrg A w N G P bl br k sg ⟨Mem.blank clk, d⟩ = .ok s' ∧
      dmrg A w N G P bl' br' k' quiet ⟨Mem.blank clk', s'.dsk⟩ = .ok s'' ∧
      COnDisk N (centred P (lbOf bl' N) (optSweeps A N (lbOf bl' N) (rbOf br' N) k' (gauged G N (lbOf bl' N) (rbOf br' N)
        (optFirst A N (lbOf bl N) (rbOf br N) (p0 + 1)
          (optSweeps A N (lbOf bl N) (rbOf br N) q0 (gauged G N (lbOf bl N) (rbOf br N) ψ, clk))).1, clk')).1) s''.dsk := by
  obtain ⟨s', e1, e2, e3⟩ := C27_emergency (P := P) H L bl br D hN clk hm hr k hs hq hp hst hno hem
  obtain ⟨s'', f1, f2, -⟩ := C26_run (P := P) H L bl' br' D hN clk' e2
    (reusable_of D n1 n2 (bounds_ok bl' br' hN).2 e3) k'
  exact ⟨s', s'', e1, f1, f2⟩

include H L D hN hm hr in
/-- **C27** (emergency seen too late). If the emergency flag is not seen at any look inside the `n` sweeps that are
done, but later (after the last look of the last sweep, before the final dump), the run ends, and of the tensor files
all but that of site `lb + 1` hold the result of the sweeps; that file holds some tensor. -/
theorem C27_late_partial (n k : Nat) {sg : Sig} (hn : n ≤ k) (hfin : sg.fin.em = true)
    (hem : ∀ q p, q < n → p < 2 * (rbOf br N - 1 - lbOf bl N) → (sg.look q p).em = false)
    (hno : ∀ q, q + 1 < n → (sg.look q (2 * (rbOf br N - 1 - lbOf bl N))).stop = false ∧
      (sg.look q (2 * (rbOf br N - 1 - lbOf bl N) + 1)).em = false)
    (hend : n = k ∨ 0 < n ∧ ((sg.look (n - 1) (2 * (rbOf br N - 1 - lbOf bl N))).stop = true ∨
      (sg.look (n - 1) (2 * (rbOf br N - 1 - lbOf bl N) + 1)).em = true)) :
    ∃ s', dmrg A w N G P bl br k sg ⟨Mem.blank clk, d⟩ = .ok s' ∧
      (∀ j, j < N → j ≠ lbOf bl N + 1 → s'.dsk.m j = .whole
        ((optSweeps A N (lbOf bl N) (rbOf br N) n (gauged G N (lbOf bl N) (rbOf br N) ψ, clk)).1 j)) ∧
      ∃ t, s'.dsk.m (lbOf bl N + 1) = .whole t := by
  obtain ⟨b1, b2⟩ := bounds_ok bl br hN
  obtain ⟨c1, fl, fr, e1, l1⟩ := dmrg_init_ok (G := G) L bl br D hN clk hm hr
  obtain ⟨c2, e2, s, hst, em, rl, g⟩ := dSweeps_run H D b1 b2 (sg := sg) n k 0 hn
    (fun x p hx hp => by rw [Nat.zero_add]; exact hem x p hx hp) (fun x hx => by rw [Nat.zero_add]; exact hno x hx)
    (hend.imp id fun h => ⟨h.1, by rw [Nat.zero_add]; exact h.2⟩) l1
  refine ⟨c2, ?_, fun j hj hj' => by rw [rl.m]; exact hst.d.m j hj (by omega), ?_⟩
  · unfold dmrg dMain
    simp only [bind, Except.bind] at e1 ⊢
    split at e1
    · simp at e1
    · rename_i v hv
      rw [e1]
      simp only [e2, hfin, if_true, pure, Except.pure]
  · obtain ⟨t, ht, -⟩ := hst.d.c (lbOf bl N + 1) (by simp only [geoD]; omega)
    exact ⟨t, by rw [rl.m]; exact ht⟩

end

/-! ### Examples -/

/-- A concrete algorithm with groups of `w i` components at bond `i`. -/
def exAlgD (w : Nat → Nat) (N : Nat) : Alg Nat (List Nat) where
  trivL _ := List.replicate (w 0) 0
  trivR _ := List.replicate (w N) 0
  growL i e t := (List.range (w (i + 1))).map (fun c => e.sum + t + c)
  growR i e t := (List.range (w i)).map (fun c => e.sum + 2 * t + c)
  opt c _ _ _ _ _ _ := (10 + 2 * c, 11 + 2 * c)

theorem exAlgD_legs (w : Nat → Nat) (N : Nat) : (exAlgD w N).Legs := ⟨fun _ _ _ _ _ _ _ => rfl, fun _ _ _ _ _ _ _ => rfl⟩

theorem exAlgD_dims (w : Nat → Nat) (N : Nat) : (exAlgD w N).Dims w N :=
  ⟨fun _ => by simp [exAlgD], fun _ => by simp [exAlgD], fun _ _ _ _ => by simp [exAlgD], fun _ _ _ _ => by simp [exAlgD]⟩

theorem exGaugeD_laws (w : Nat → Nat) (N : Nat) : exGauge.Laws (exAlgD w N) :=
  ⟨fun _ _ _ => rfl, fun _ _ _ => rfl, fun _ _ _ => rfl, fun _ _ _ => rfl, fun _ _ _ _ => rfl⟩

/-- A directory with the tensors `0, 1, 2, …` and no block operators. -/
def exCDsk : CDsk Nat Nat := ⟨fun j => .whole j, fun _ _ => .gone, fun _ _ => .gone⟩

/-- An MPO for five sites with bond dimensions 1, 3, 4, 2, 3, 1. -/
def exW : Nat → Nat := fun i => [1, 3, 4, 2, 3, 1].getD i 1

/-- The hypotheses about the directory hold: the block operators are missing. -/
example : COnDisk 5 (fun j => j) exCDsk ∧ needOps exW 5 0 4 exCDsk = true ∧
    OpsReusable (exAlgD exW 5) exW 5 0 4 (fun j => j) exCDsk := by
  refine ⟨fun j _ => rfl, by decide, fun h => absurd h (by decide)⟩

/-- The flags if a signal arrives after `t` looks of a run whose sweeps have `m` looks. -/
def arrive (m t : Nat) (f : Flags) : Sig := ⟨fun q p => if t ≤ m * q + min p (m - 1) then f else ⟨false, false⟩, f⟩

/-- Five sites, full range: six updates per sweep. An emergency is first seen after update 3 of sweep 1, so ten updates
are on disk. -/
example : (dmrg (exAlgD exW 5) exW 5 exGauge exGauge (fun _ => true) (fun _ => true) 4 (arrive 8 11 ⟨true, true⟩)
    ⟨Mem.blank 0, exCDsk⟩).toOption.map (fun s => ((List.range 5).map s.dsk.m, s.mem.clk)) =
    some ([.whole 22, .whole 24, .whole 26, .whole 28, .whole 29], 10) := by
  decide +kernel

/-- Signals that arrive at some moment and set both flags, or only `stop`. -/
theorem arrive_ok {m t : Nat} (hm : 0 < m) {f : Flags} (hf : f.em = true → f.stop = true) : (arrive m t f).OK := by
  have mono : ∀ {q p q' p'}, (q < q' ∨ q = q' ∧ p ≤ p') → m * q + min p (m - 1) ≤ m * q' + min p' (m - 1) := by
    rintro q p q' p' (h | ⟨rfl, h⟩)
    · have h1 : m * (q + 1) ≤ m * q' := Nat.mul_le_mul_left m h
      rw [Nat.mul_add, Nat.mul_one] at h1
      omega
    · omega
  refine ⟨fun q p q' p' h => ?_, fun q p q' p' h => ?_, fun q p => ?_, fun q p => ?_, fun q p => ?_, hf⟩ <;> simp only [arrive]
  · have := mono h
    split
    · rw [if_pos (by omega)]; exact id
    · intro h; simp at h
  · have := mono h
    split
    · rw [if_pos (by omega)]; exact id
    · intro h; simp at h
  · split
    · exact hf
    · intro h; simp at h
  · split
    · exact id
    · intro h; simp at h
  · split
    · exact id
    · intro h; simp at h

/-- The hypotheses of `C27_emergency`, `C28_soft_stop` and `C27_late_partial` about the signals can be met. -/
example : ((arrive 8 11 ⟨true, true⟩).look 1 3).em = true ∧ ((arrive 8 11 ⟨true, true⟩).look 1 2).em = false ∧
    ((arrive 8 11 ⟨true, true⟩).look 0 7).em = false := by decide

example : ((arrive 8 11 ⟨true, false⟩).look 0 6).stop = false ∧ ((arrive 8 11 ⟨true, false⟩).look 1 6).stop = true ∧
    (arrive 8 11 ⟨true, false⟩).fin.em = false := by decide

/-- **C27** (the code). Five sites, full range, one sweep. If the signal arrives after the last look inside the sweep,
the directory ends up with an MPS that the algorithm never had: neither the result of the sweep nor that of any number
of its updates. -/
theorem C27_violation : ∃ (sg : Sig) (s' : CSys Nat Nat), sg.OK ∧
    dmrg (exAlgD exW 5) exW 5 exGauge exGauge (fun _ => true) (fun _ => true) 1 sg ⟨Mem.blank 0, exCDsk⟩ = .ok s' ∧
    ∀ p, ¬ COnDisk 5 (optFirst (exAlgD exW 5) 5 0 4 p ((fun j => j), 0)).1 s'.dsk := by
  have hs : (dmrg (exAlgD exW 5) exW 5 exGauge exGauge (fun _ => true) (fun _ => true) 1 (arrive 8 7 ⟨true, true⟩)
      ⟨Mem.blank 0, exCDsk⟩).toOption.map (fun s => (s.dsk.m 1, s.dsk.m 2)) = some (.whole 12, .whole 21) := by
    decide +kernel
  refine ⟨arrive 8 7 ⟨true, true⟩, ?_⟩
  cases hrun : dmrg (exAlgD exW 5) exW 5 exGauge exGauge (fun _ => true) (fun _ => true) 1 (arrive 8 7 ⟨true, true⟩)
      ⟨Mem.blank 0, exCDsk⟩ with
  | error x => rw [hrun] at hs; exact absurd hs (by simp [Except.toOption])
  | ok s' =>
    rw [hrun] at hs
    simp only [Except.toOption, Option.map_some, Option.some.injEq, Prod.mk.injEq] at hs
    refine ⟨s', arrive_ok (by decide) (fun h => h), rfl, fun p hp => ?_⟩
    have h1 := (hs.1.symm.trans (hp 1 (by decide)))
    have h2 := (hs.2.symm.trans (hp 2 (by decide)))
    have key : ∀ p, p ≤ 6 → ((optFirst (exAlgD exW 5) 5 0 4 p ((fun j => j), 0)).1 1, (optFirst (exAlgD exW 5) 5 0 4 p ((fun j => j), 0)).1 2) ≠
        (12, 21) := by decide +kernel
    have hmin : optFirst (exAlgD exW 5) 5 0 4 p ((fun j => j), 0) = optFirst (exAlgD exW 5) 5 0 4 (min p 6) ((fun j => j), 0) := by
      unfold optFirst
      rcases Nat.le_total p 6 with h | h
      · rw [Nat.min_eq_left h]
      · rw [Nat.min_eq_right h, List.take_of_length_le (by rw [updates_length]; exact h),
          List.take_of_length_le (by rw [updates_length]; decide)]
    rw [hmin] at h1 h2
    injection h1 with h1
    injection h2 with h2
    exact key (min p 6) (by omega) (by rw [← h1, ← h2])

theorem second_execute {A : Alg T (List O)} {w : Nat → Nat} {N : Nat} (G P : Gauge T) (bl br : Nat → Bool) (k : Nat)
    (sg : Sig) {s : CSys T O} {j : Nat} {t : T} (hj : j < N) (h : s.mem.m j = some t) :
    dmrg A w N G P bl br k sg s = .error .assertFail := by
  have : ¬ (List.range N).all (fun i => (s.mem.m i).isNone) = true := by
    rw [List.all_eq_true]
    intro hc
    have := hc j (List.mem_range.mpr hj)
    rw [h] at this
    simp at this
  simp only [dmrg, dmrgInit, checkBoundary, List.cons_append, crun, cexec, assertEmpty, if_neg this, bind, Except.bind]

/-- **C61** (the code). A run without signals on any number of sites succeeds, and executing the same object again then
fails the assertion that the MPS object is empty, whatever the number of sweeps, the boundary sites and the signals: the
post-processing leaves tensors in memory. -/
theorem C61_second_execute_violation {A : Alg T (List O)} (H : A.Legs) {w : Nat → Nat} {G P : Gauge T} (L : G.Laws A) (bl br : Nat → Bool) {N : Nat}
    (D : A.Dims w N) (hN : 3 ≤ N) (clk : Nat) {ψ : Nat → T} {d : CDsk T O} (hm : COnDisk N ψ d) (hr : OpsReusable A w N (lbOf bl N) (rbOf br N) ψ d) (k : Nat) :
    ∃ s', dmrg A w N G P bl br k quiet ⟨Mem.blank clk, d⟩ = .ok s' ∧
      ∀ bl' br' k' sg, dmrg A w N G P bl' br' k' sg s' = .error .assertFail := by
  obtain ⟨s', e1, -, -, -, -, t, e2⟩ := C26_run (P := P) H L bl br D hN clk hm hr k
  exact ⟨s', e1, fun bl' br' k' sg => second_execute G P bl' br' k' sg (by omega) e2⟩

/-- After a complete run of five sites there are two such tensors. -/
example : (dmrg (exAlgD exW 5) exW 5 exGauge exGauge (fun _ => true) (fun _ => true) 1 quiet
    ⟨Mem.blank 0, exCDsk⟩).toOption.map (fun s => (List.range 5).map fun i => (s.mem.m i).isSome) =
    some [true, true, false, false, false] := by
  decide +kernel

end Verif.Props
