import Verif.Mps.TruncFacts
/-
`TruncateMPS` (finite_mps.h:351-388) and the facts its properties rest on.
-/
namespace Verif.Mps
open Finset

/-- The result of the truncated `SVD(t, 2, …, &u, &s, &vt)` of the tensor library; `s` is the diagonal. The new bond is `u.r`. -/
structure Svd3 (τ K : Type) where
  u : Ten τ K
  s : Nat → K
  vt : Mat K

variable {τ K : Type} [CommRing K]

/-- Contraction of the normalised `s` with `vt` (finite_mps.h:381-382). -/
def diagMul (s : Nat → K) (vt : Mat K) : Mat K := fun j b => s j * vt j b

/-- The body of the loop of `TruncateMPS` (finite_mps.h:364-387): `svd3` is the truncated SVD, `terr` the error it reports and `snrm d s`
is `s.Normalize()` on a diagonal of length `d` (the norm and the new entries). Every access is through the non-const operators, so the flags of both
sites become NONE. The printed errors are collected. -/
def FMps.truncStep (svd3 : Ten τ K → Svd3 τ K) (terr : Ten τ K → K) (snrm : Nat → (Nat → K) → K × (Nat → K))
    (x : FMps τ K × List K) (i : Nat) : Except Err (FMps τ K × List K) :=
  match x.1.slots[i]?, x.1.slots[i + 1]? with
  | some (some t), some (some v) =>
    if t.r = v.l then
      .ok (⟨(x.1.slots.set i (some (svd3 t).u)).set (i + 1)
          (some (mulL (diagMul (snrm (svd3 t).u.r (svd3 t).s).2 (svd3 t).vt) (svd3 t).u.r v)),
        (x.1.flags.set i .none).set (i + 1) .none, -1⟩, x.2 ++ [terr t])
    else .error .ub
  | _, _ => .error .ub

/-- `TruncateMPS` (finite_mps.h:351-388); `nrm` is `Normalize()` of the first tensor (line 361). -/
def FMps.truncate (qr svd : Ten τ K → Ten τ K × Mat K) (nrm : Ten τ K → K × Ten τ K) (svd3 : Ten τ K → Svd3 τ K) (terr : Ten τ K → K)
    (snrm : Nat → (Nat → K) → K × (Nat → K)) (m : FMps τ K) : Except Err (FMps τ K × List K) :=
  if 2 ≤ m.size then do
    let m1 ← m.centralize qr svd 0
    let t ← m1.read 0
    let m2 ← m1.write 0 (nrm t).2
    (List.range (m.size - 1)).foldlM (FMps.truncStep svd3 terr snrm) (m2, [])
  else .error .assertFail

variable [StarRing K] [Fintype τ]

/-- What the code relies on from the truncated SVD of the tensor library: `u` is a left isometry, the rows of `vt` are orthonormal, `s·vt` is the part
of `t` along `u`, the singular values are real and `terr` is the discarded fraction of the squared norm. -/
structure Svd3Spec (svd3 : Ten τ K → Svd3 τ K) (terr : Ten τ K → K) : Prop where
  dim : ∀ t, (svd3 t).u.l = t.l
  iso : ∀ t, LeftIso (svd3 t).u
  rows : ∀ t, ∀ j, j < (svd3 t).u.r → ∑ b ∈ range t.r, (svd3 t).vt j b * star ((svd3 t).vt j b) = 1
  proj : ∀ t j b, j < (svd3 t).u.r → b < t.r →
    (svd3 t).s j * (svd3 t).vt j b = ∑ x, ∑ a ∈ range t.l, star ((svd3 t).u.v x a j) * t.v x a b
  real : ∀ t j, star ((svd3 t).s j) = (svd3 t).s j
  err : ∀ t, ∑ j ∈ range (svd3 t).u.r, (svd3 t).s j * (svd3 t).s j = (1 - terr t) * normSq t

/-- What the code relies on from `s.Normalize()` of a real diagonal tensor. -/
structure SnrmSpec (snrm : Nat → (Nat → K) → K × (Nat → K)) : Prop where
  fac : ∀ d s j, j < d → s j = (snrm d s).1 * (snrm d s).2 j
  unit : ∀ d s, ∑ j ∈ range d, s j * s j ≠ 0 → ∑ j ∈ range d, (snrm d s).2 j * (snrm d s).2 j = 1
  real : ∀ d s, (∀ j, star (s j) = s j) → star (snrm d s).1 = (snrm d s).1 ∧ ∀ j, star ((snrm d s).2 j) = (snrm d s).2 j

/-- The part of `f` along the states of `L` is `κ` times the chain from `t` on. -/
def ProjL (f : List τ → K) (κ : K) (L : List (Ten τ K)) (t : Ten τ K) (R : List (Ten τ K)) : Prop :=
  ∀ rest, rest.length = R.length + 1 → ∀ a, a < t.l →
    ∑ l : Fin L.length → τ, star (amp L (List.ofFn l) 0 a) * f (List.ofFn l ++ rest) = κ * amp (t :: R) rest a 0

omit [CommRing K] [StarRing K] in
theorem sum_snoc {M : Type} [AddCommMonoid M] (n : Nat) (f : (Fin (n + 1) → τ) → M) :
    ∑ s, f s = ∑ x, ∑ s : Fin n → τ, f (Fin.snoc s x) := by
  rw [← (Fin.snocEquiv (fun _ => τ)).sum_comp, Fintype.sum_prod_type]
  rfl

omit [CommRing K] [StarRing K] [Fintype τ] in
theorem ofFn_snoc' (n : Nat) (s : Fin n → τ) (x : τ) : List.ofFn (Fin.snoc s x : Fin (n + 1) → τ) = List.ofFn s ++ [x] := by
  rw [List.ofFn_succ']
  simp

theorem projL_start {f : List τ → K} {κ : K} {t : Ten τ K} {R : List (Ten τ K)} (h1 : t.l = 1)
    (hf : ∀ ss, ss.length = R.length + 1 → f ss = κ * amp (t :: R) ss 0 0) : ProjL f κ [] t R := by
  intro rest hr a ha
  have : a = 0 := by omega
  subst this
  simp [amp, hf rest hr]

theorem normSq_mulL {v : Ten τ K} {M : Mat K} {d : Nat} (hv : RightIso v) :
    normSq (mulL M d v) = ∑ j ∈ range d, ∑ k ∈ range v.l, M j k * star (M j k) := by
  unfold normSq mulL
  simp only
  have e : ∀ (s : τ) (j b : Nat), (∑ k ∈ range v.l, M j k * v.v s k b) * star (∑ k ∈ range v.l, M j k * v.v s k b) =
      ∑ k ∈ range v.l, ∑ k' ∈ range v.l, M j k * star (M j k') * (v.v s k b * star (v.v s k' b)) := by
    intro s a j
    rw [star_sum, Finset.sum_mul_sum]
    refine sum_congr rfl fun k _ => sum_congr rfl fun k' _ => ?_
    rw [star_mul']; ring
  simp only [e]
  rw [sum_comm]
  refine sum_congr rfl fun j _ => ?_
  rw [sum_congr rfl fun s _ => sum_comm (s := range v.r), sum_comm]
  refine sum_congr rfl fun k hk => ?_
  rw [sum_congr rfl fun s _ => sum_comm (s := range v.r), sum_comm]
  rw [mem_range] at hk
  have : ∀ k' ∈ range v.l, (∑ s, ∑ b ∈ range v.r, M j k * star (M j k') * (v.v s k b * star (v.v s k' b))) =
      M j k * star (M j k') * (if k = k' then 1 else 0) := by
    intro k' hk'
    rw [← hv k hk k' (by simpa using hk'), Finset.mul_sum]
    exact sum_congr rfl fun s _ => by rw [Finset.mul_sum]
  rw [sum_congr rfl this]
  simp [hk]

variable {svd3 : Ten τ K → Svd3 τ K} {terr : Ten τ K → K} {snrm : Nat → (Nat → K) → K × (Nat → K)}

theorem projL_step (H : Svd3Spec svd3 terr) (Hs : SnrmSpec snrm) {f : List τ → K} {κ : K} {L : List (Ten τ K)} {t v : Ten τ K} {R : List (Ten τ K)}
    (h : ProjL f κ L t (v :: R)) (hl : Linked (L ++ [t])) (htv : t.r = v.l) (h1 : headL (L ++ [t]) = 1) :
    ProjL f (κ * (snrm (svd3 t).u.r (svd3 t).s).1) (L ++ [(svd3 t).u])
      (mulL (diagMul (snrm (svd3 t).u.r (svd3 t).s).2 (svd3 t).vt) (svd3 t).u.r v) R := by
  intro rest hrest j hj
  have hj : j < (svd3 t).u.r := hj
  have lk : Linked (L ++ [(svd3 t).u]) := by
    unfold Linked at hl ⊢
    rw [List.isChain_append] at hl ⊢
    refine ⟨hl.1, by simp, ?_⟩
    intro x hx y hy
    have := hl.2.2 x hx t (by simp)
    simp at hy; subst hy
    rw [H.dim]; exact this
  have inh : InHead (L ++ [(svd3 t).u]) 0 := by
    cases L with
    | nil => intro w hw; simp at hw; subst hw; simp [headL] at h1; rw [H.dim]; omega
    | cons p L => intro w hw; simp at hw; subst hw; simp [headL] at h1; omega
  have hlen : (L ++ [(svd3 t).u]).length = L.length + 1 := by simp
  have cast : ∀ (n : Nat) (hn : n = L.length + 1) (g : List τ → K), ∑ l : Fin n → τ, g (List.ofFn l) = ∑ l : Fin (L.length + 1) → τ, g (List.ofFn l) := by
    intro n hn g; subst hn; rfl
  rw [cast _ hlen (fun l => star (amp (L ++ [(svd3 t).u]) l 0 j) * f (l ++ rest)), sum_snoc]
  have e1 : ∀ x : τ, (∑ l : Fin L.length → τ, star (amp (L ++ [(svd3 t).u]) (List.ofFn (Fin.snoc l x : Fin (L.length + 1) → τ)) 0 j) *
      f (List.ofFn (Fin.snoc l x : Fin (L.length + 1) → τ) ++ rest)) =
      ∑ a ∈ range t.l, star ((svd3 t).u.v x a j) * (κ * amp (t :: v :: R) (x :: rest) a 0) := by
    intro x
    have : ∀ a ∈ range t.l, star ((svd3 t).u.v x a j) * (κ * amp (t :: v :: R) (x :: rest) a 0) =
        ∑ l : Fin L.length → τ, star ((svd3 t).u.v x a j) * (star (amp L (List.ofFn l) 0 a) * f (List.ofFn l ++ x :: rest)) := by
      intro a ha
      rw [← h (x :: rest) (by simp [hrest]) a (by simpa using ha), Finset.mul_sum]
    rw [sum_congr rfl this, sum_comm]
    refine sum_congr rfl fun l _ => ?_
    rw [ofFn_snoc', amp_snoc _ x j hj L (List.ofFn l) 0 (by simp) lk inh, H.dim, star_sum, Finset.sum_mul]
    refine sum_congr rfl fun a _ => ?_
    rw [star_mul']
    simp only [List.append_assoc, List.singleton_append]
    ring
  rw [sum_congr rfl fun x _ => e1 x]
  have e2 : ∀ x : τ, ∀ a ∈ range t.l, star ((svd3 t).u.v x a j) * (κ * amp (t :: v :: R) (x :: rest) a 0) =
      ∑ b ∈ range t.r, κ * amp (v :: R) rest b 0 * (star ((svd3 t).u.v x a j) * t.v x a b) := by
    intro x a _
    rw [amp_cons, Finset.mul_sum, Finset.mul_sum]
    exact sum_congr rfl fun b _ => by ring
  rw [sum_congr rfl fun x _ => sum_congr rfl (e2 x)]
  rw [sum_congr rfl fun x _ => sum_comm, sum_comm]
  have e3 : ∀ b ∈ range t.r, (∑ x, ∑ a ∈ range t.l, κ * amp (v :: R) rest b 0 * (star ((svd3 t).u.v x a j) * t.v x a b)) =
      κ * amp (v :: R) rest b 0 * ((snrm (svd3 t).u.r (svd3 t).s).1 * (snrm (svd3 t).u.r (svd3 t).s).2 j * (svd3 t).vt j b) := by
    intro b hb
    rw [← Hs.fac _ _ j hj, H.proj t j b hj (by simpa using hb), Finset.mul_sum]
    exact sum_congr rfl fun x _ => by rw [Finset.mul_sum]
  rw [sum_congr rfl e3]
  match rest, hrest with
  | x :: rest, _ =>
    rw [amp_cons, Finset.mul_sum]
    simp only [mulL, diagMul]
    have e4 : ∀ b ∈ range t.r, κ * amp (v :: R) (x :: rest) b 0 * ((snrm (svd3 t).u.r (svd3 t).s).1 * (snrm (svd3 t).u.r (svd3 t).s).2 j * (svd3 t).vt j b) =
        ∑ k ∈ range v.r, κ * (snrm (svd3 t).u.r (svd3 t).s).1 * ((snrm (svd3 t).u.r (svd3 t).s).2 j * (svd3 t).vt j b * v.v x b k * amp R rest k 0) := by
      intro b _
      rw [amp_cons, Finset.mul_sum, Finset.sum_mul]
      exact sum_congr rfl fun k _ => by ring
    rw [sum_congr rfl e4, sum_comm, htv]
    refine sum_congr rfl fun k _ => ?_
    rw [Finset.sum_mul, Finset.mul_sum]

/-- With the centre at the last site, the overlap of the new state with the old one is `κ` times the squared norm of the new one. -/
theorem projL_overlap {f : List τ → K} {κ : K} {t : Ten τ K} {L : List (Ten τ K)} (h : ProjL f κ L t []) (hr : t.r = 1) (hl : Linked (L ++ [t]))
    (h1 : headL (L ++ [t]) = 1) :
    ∑ s : Fin (L.length + 1) → τ, star (amp (L ++ [t]) (List.ofFn s) 0 0) * f (List.ofFn s) = κ * normSq t := by
  rw [sum_snoc]
  unfold normSq
  rw [Finset.mul_sum]
  refine sum_congr rfl fun x _ => ?_
  have inh : InHead (L ++ [t]) 0 := by
    cases L with
    | nil => intro w hw; simp at hw; subst hw; simp [headL] at h1; omega
    | cons p L => intro w hw; simp at hw; subst hw; simp [headL] at h1; omega
  rw [hr, Finset.mul_sum]
  have : ∀ a ∈ range t.l, κ * ∑ b ∈ range 1, t.v x a b * star (t.v x a b) =
      ∑ l : Fin L.length → τ, star (t.v x a 0) * (star (amp L (List.ofFn l) 0 a) * f (List.ofFn l ++ [x])) := by
    intro a ha
    rw [← Finset.mul_sum, h [x] rfl a (by simpa using ha), amp_cons, hr, sum_range_one, sum_range_one]
    simp only [amp, if_true]
    ring
  rw [sum_congr rfl this, sum_comm]
  refine sum_congr rfl fun l _ => ?_
  rw [ofFn_snoc', amp_snoc t x 0 (by omega) L (List.ofFn l) 0 (by simp) hl inh, star_sum, Finset.sum_mul]
  refine sum_congr rfl fun a _ => ?_
  rw [star_mul']
  ring

theorem norm_step (H : Svd3Spec svd3 terr) (Hs : SnrmSpec snrm) {t v : Ten τ K} (hv : RightIso v) (htv : t.r = v.l) (hn : normSq t = 1)
    (hne : 1 - terr t ≠ 0) :
    normSq (mulL (diagMul (snrm (svd3 t).u.r (svd3 t).s).2 (svd3 t).vt) (svd3 t).u.r v) = 1 ∧
    (snrm (svd3 t).u.r (svd3 t).s).1 * star (snrm (svd3 t).u.r (svd3 t).s).1 = 1 - terr t := by
  have he := H.err t
  rw [hn, mul_one] at he
  have hu := Hs.unit (svd3 t).u.r (svd3 t).s (by rw [he]; exact hne)
  have hre := Hs.real (svd3 t).u.r (svd3 t).s (H.real t)
  constructor
  · rw [normSq_mulL hv, ← hu]
    refine sum_congr rfl fun j hj => ?_
    have := H.rows t j (by simpa using hj)
    simp only [diagMul, star_mul', hre.2]
    rw [← htv]
    calc _ = ∑ b ∈ range t.r, ((snrm (svd3 t).u.r (svd3 t).s).2 j * (snrm (svd3 t).u.r (svd3 t).s).2 j) * ((svd3 t).vt j b * star ((svd3 t).vt j b)) :=
          sum_congr rfl fun b _ => by ring
      _ = _ := by rw [← Finset.mul_sum, this, mul_one]
  · rw [hre.1, ← he]
    have : ∀ j ∈ range (svd3 t).u.r, (svd3 t).s j * (svd3 t).s j =
        (snrm (svd3 t).u.r (svd3 t).s).1 * (snrm (svd3 t).u.r (svd3 t).s).1 * ((snrm (svd3 t).u.r (svd3 t).s).2 j * (snrm (svd3 t).u.r (svd3 t).s).2 j) := by
      intro j hj
      have := Hs.fac (svd3 t).u.r (svd3 t).s j (by simpa using hj)
      calc _ = ((snrm (svd3 t).u.r (svd3 t).s).1 * (snrm (svd3 t).u.r (svd3 t).s).2 j) * ((snrm (svd3 t).u.r (svd3 t).s).1 * (snrm (svd3 t).u.r (svd3 t).s).2 j) := by rw [← this]
        _ = _ := by ring
    rw [sum_congr rfl this, ← Finset.mul_sum, hu, mul_one]

/-- The loop of `TruncateMPS`, started at the first site of a chain that is right-canonical after it. -/
theorem truncMpsLoop (H : Svd3Spec svd3 terr) (Hs : SnrmSpec snrm) (hne : ∀ t, normSq t = 1 → 1 - terr t ≠ 0) (f : List τ → K) :
    ∀ (R : List (Ten τ K)) (m : FMps τ K) (es : List K) (L : List (Ten τ K)) (t : Ten τ K) (κ : K),
    Rep m (L ++ t :: R) → headL (L ++ t :: R) = 1 → (∀ u ∈ L, LeftIso u) → (∀ u ∈ R, RightIso u) → ProjL f κ L t R → normSq t = 1 →
    ∃ (m' : FMps τ K) (L' : List (Ten τ K)) (t' : Ten τ K) (es' : List K) (κ' : K),
      (List.range' L.length R.length).foldlM (FMps.truncStep svd3 terr snrm) (m, es) = .ok (m', es ++ es') ∧
      Rep m' (L' ++ [t']) ∧ L'.length = L.length + R.length ∧ headL (L' ++ [t']) = 1 ∧ lastR (L' ++ [t']) = lastR (L ++ t :: R) ∧
      (∀ u ∈ L', LeftIso u) ∧ ProjL f κ' L' t' [] ∧ normSq t' = 1 ∧ κ' * star κ' = κ * star κ * (es'.map (1 - ·)).prod ∧
      es'.length = R.length ∧ (R ≠ [] → m'.center = -1) ∧
      (∀ j, j < L.length + 1 + R.length → m'.flags[j]? = if L.length ≤ j ∧ R ≠ [] then some .none else m.flags[j]?) ∧
      (∀ D, (∀ t, (svd3 t).u.r ≤ D) → (∀ u ∈ L, u.r ≤ D) → ∀ u ∈ L', u.r ≤ D) := by
  intro R
  induction R with
  | nil =>
    intro m es L t κ hr h1 hL hR hp hn
    exact ⟨m, L, t, [], κ, by simp; rfl, hr, rfl, h1, rfl, hL, hp, hn, by simp, rfl, by simp, by simp, fun D _ h => h⟩
  | cons v R ih =>
    intro m es L t κ hr h1 hL hR hp hn
    have g1 : (L ++ t :: v :: R)[L.length]? = some t := by simp
    have g2 : (L ++ t :: v :: R)[L.length + 1]? = some v := by simp
    have htv := linked_get hr.link L.length t v g1 g2
    obtain ⟨n1, n2⟩ := norm_step H Hs (hR v (by simp)) htv hn (hne t hn)
    set ν := (snrm (svd3 t).u.r (svd3 t).s).1 with hν
    set w := mulL (diagMul (snrm (svd3 t).u.r (svd3 t).s).2 (svd3 t).vt) (svd3 t).u.r v with hw
    have lk2 := linked_set2 (t := t) (u := v) (p := (svd3 t).u) (q := w) (H.dim t) rfl rfl L.length _ g1 g2 hr.link
    rw [set2_mid rfl] at lk2
    set m1 : FMps τ K := ⟨(m.slots.set L.length (some (svd3 t).u)).set (L.length + 1) (some w),
      (m.flags.set L.length .none).set (L.length + 1) .none, -1⟩ with hm1
    have assoc : L ++ (svd3 t).u :: w :: R = (L ++ [(svd3 t).u]) ++ w :: R := by simp
    have r1 : Rep m1 ((L ++ [(svd3 t).u]) ++ w :: R) := by
      rw [← assoc]
      refine ⟨?_, ?_, lk2.1⟩
      · simp only [hm1, hr.slots, map_set2, set2_mid]
      · simp [hm1, hr.flen]
    have hll : Linked (L ++ [t]) := by
      have := hr.link
      rw [show L ++ t :: v :: R = (L ++ [t]) ++ v :: R by simp] at this
      exact linked_append_left this
    have hd1 : headL (L ++ [t]) = 1 := by
      rw [← h1]; cases L <;> rfl
    obtain ⟨m', L', t', es', κ', a1, a2, a3, a4, a5, a6, a7, a8, a9, a10, a11, a12, a13⟩ := ih m1 (es ++ [terr t]) (L ++ [(svd3 t).u]) w (κ * ν) r1
      (by rw [← assoc]; exact lk2.2.trans h1)
      (fun u hu => by rcases List.mem_append.mp hu with h | h; · exact hL u h
                      · simp at h; rw [h]; exact H.iso t)
      (fun u hu => hR u (by simp [hu])) (projL_step H Hs hp hll htv hd1) n1
    refine ⟨m', L', t', terr t :: es', κ', ?_, a2, by simp at a3 ⊢; omega, a4, ?_, a6, a7, a8, ?_, by simp [a10], ?_, ?_, ?_⟩
    · rw [List.length_cons, List.range'_succ, List.foldlM_cons]
      have e2 : FMps.truncStep svd3 terr snrm (m, es) L.length = .ok (m1, es ++ [terr t]) := by
        unfold FMps.truncStep
        simp only [hr.get g1, hr.get g2]
        rw [if_pos htv]
      rw [e2]
      rw [show es ++ terr t :: es' = es ++ [terr t] ++ es' by simp]
      rw [show L.length + 1 = (L ++ [(svd3 t).u]).length by simp]
      exact a1
    · rw [a5]
      cases R with
      | nil => simp [lastR, hw, mulL]
      | cons x R => simp [lastR]
    · rw [a9]
      simp only [List.map_cons, List.prod_cons, star_mul']
      rw [← n2]; ring
    · intro _
      cases R with
      | nil =>
        simp at a1
        have a1' : m1 = m' := congrArg Prod.fst (Except.ok.inj a1)
        rw [← a1']
      | cons x R => exact a11 (by simp)
    · intro j hj
      have hfl := hr.flen
      simp only [List.length_append, List.length_cons] at hfl hj
      have hj2 : j < m.flags.length := by omega
      rw [a12 j (by simp; omega)]
      simp only [List.length_append, List.length_cons, List.length_nil, ne_eq, reduceCtorEq, not_false_eq_true, and_true]
      simp only [hm1, List.getElem?_set, List.length_set]
      by_cases c1 : j = L.length
      · subst c1
        rw [if_neg (by omega), if_neg (by omega), if_pos rfl, if_pos hj2, if_pos (by omega)]
      · by_cases c2 : j = L.length + 1
        · subst c2
          rw [if_pos rfl, if_pos hj2, if_pos (show L.length ≤ L.length + 1 by omega)]
          split <;> rfl
        · rw [if_neg (show ¬ L.length + 1 = j by omega), if_neg (show ¬ L.length = j by omega)]
          by_cases c3 : L.length ≤ j
          · rw [if_pos c3, if_pos]
            refine ⟨by omega, ?_⟩
            intro h; subst h; simp at hj; omega
          · rw [if_neg (by omega), if_neg c3]
    · intro D hD hL'
      refine a13 D hD fun u hu => ?_
      rcases List.mem_append.mp hu with h | h
      · exact hL' u h
      · simp at h; rw [h]; exact hD t

end Verif.Mps
